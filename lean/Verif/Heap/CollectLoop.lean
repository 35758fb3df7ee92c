import Verif.Heap.CollectCore

/-! The traversal of `collect` keeps the invariant and ends. -/

namespace Avian.Collect

open Avian.Bitset (Walker)

theorem seg_ne_fixed (e : Env) : seg e ≠ .fixed := by unfold seg; cases e.mode <;> simp

/-- what a step may change -/
structure Frame (s s' : St) : Prop where
  bits : s'.bits = s.bits
  parent : s'.parent = s.parent
  vis : s'.visitedList = s.visitedList
  fwd : ∀ a d, s.fwd a = some d → s'.fwd a = some d

theorem Frame.refl (s : St) : Frame s s := ⟨rfl, rfl, rfl, fun _ _ h => h⟩
theorem Frame.trans {s s' s'' : St} (h : Frame s s') (h' : Frame s' s'') : Frame s s'' :=
  ⟨h'.bits.trans h.bits, h'.parent.trans h.parent, h'.vis.trans h.vis, fun a d e => h'.fwd a d (h.fwd a d e)⟩

structure UpdateSpec (c : Ctx) (s : St) (raw un : Addr → Nat → Prop) (dn : Slot → Prop) (ip : List Addr) (sl : Slot)
    (v : Addr) (r : St × Addr × Bool) : Prop where
  done : Done c r.1 v r.2.1
  stay : r.2.2 = false → Core c r.1 raw un dn ip ∧ ∀ a, r.1.fwd a = s.fwd a
  moved : r.2.2 = true → v ∈ c.U ∧ c.kind v = .movable ∧ s.fwd v = none ∧
    Core c r.1 (fun a k => raw a k ∨ a = v) (fun a k => un a k ∨ a = v) dn ip ∧
    ∀ a d, r.1.fwd a = some d → s.fwd a = some d ∨ a = v
  frame : Frame s r.1
  rem : ∀ a k, sl = .field a k → Owner c r.1 a → r.2.1 ≠ 0 → needsMemory c.e r.1 r.2.1 = true →
    r.1.remembered a k = true

theorem heapMap_spec {c s raw un dn ip} (sl : Slot) (r : Addr) (h : Core c s raw un dn ip)
    (hsl : ∀ a k, sl = .field a k → Mine c s a k) :
    Core c (updateHeapMap c.e s sl r) raw un dn ip ∧ Frame s (updateHeapMap c.e s sl r) ∧
    (updateHeapMap c.e s sl r).fwd = s.fwd ∧ (updateHeapMap c.e s sl r).marked = s.marked ∧
    (∀ a k, sl = .field a k → Owner c (updateHeapMap c.e s sl r) a →
      needsMemory c.e (updateHeapMap c.e s sl r) r = true → (updateHeapMap c.e s sl r).remembered a k = true) := by
  have hrem : ∀ a k, (remember s a k true).remembered a k = true := by
    intro a k; simp [remember]
  have hfr : ∀ a k, Frame s (remember s a k true) := fun a k => ⟨rfl, rfl, rfl, fun _ _ h => h⟩
  unfold updateHeapMap
  by_cases hn : needsMemory c.e s r = true
  · rw [if_pos hn]
    cases sl with
    | root i => exact ⟨h, Frame.refl s, rfl, rfl, fun a k e => by cases e⟩
    | field a k =>
      simp only
      by_cases h1 : s.region a = .fixed
      · rw [if_pos h1]
        by_cases h2 : fixieTenureThreshold ≤ s.age a + 1
        · rw [if_pos h2]
          exact ⟨core_remember h a k (hsl a k rfl), hfr a k, rfl, rfl, fun a' k' e _ _ => by cases e; exact hrem a k⟩
        · rw [if_neg h2]
          refine ⟨h, Frame.refl s, rfl, rfl, fun a' k' e ho _ => ?_⟩
          cases e
          rcases ho with ⟨_, ho⟩ | ho
          · exact absurd ho h2
          · rw [h1] at ho; exact absurd ho.symm (seg_ne_fixed _)
      · rw [if_neg h1]
        by_cases h2 : s.region a = seg c.e
        · rw [if_pos h2]
          exact ⟨core_remember h a k (hsl a k rfl), hfr a k, rfl, rfl, fun a' k' e _ _ => by cases e; exact hrem a k⟩
        · rw [if_neg h2]
          refine ⟨h, Frame.refl s, rfl, rfl, fun a' k' e ho _ => ?_⟩
          cases e
          rcases ho with ⟨ho, _⟩ | ho
          · exact absurd ho h1
          · exact absurd ho h2
  · rw [if_neg hn]
    exact ⟨h, Frame.refl s, rfl, rfl, fun a k _ _ h' => absurd h' hn⟩

theorem done_heapMap {c s b v} {sl : Slot} {r : Addr} (hf : (updateHeapMap c.e s sl r).fwd = s.fwd)
    (hm : (updateHeapMap c.e s sl r).marked = s.marked) (h : Done c s b v) : Done c (updateHeapMap c.e s sl r) b v := by
  cases h with
  | null h1 h2 => exact .null h1 h2
  | still h1 h2 h3 => exact .still h1 h2 h3
  | fixed h1 h2 h3 h4 => exact .fixed h1 h2 (by rw [hm]; exact h3) h4
  | moved h1 => exact .moved (by rw [hf]; exact h1)

theorem update_spec {c s raw un dn ip} (w : WF c) (h : Core c s raw un dn ip) (sl : Slot) (v : Addr)
    (hv : v = 0 ∨ (v ∈ c.U ∧ Reach c v)) (hsl : ∀ a k, sl = .field a k → Mine c s a k) :
    UpdateSpec c s raw un dn ip sl v (update c.e s sl v) := by
  unfold update
  by_cases h0 : v = 0
  · subst h0
    rw [if_pos rfl]
    exact ⟨.null rfl rfl, fun _ => ⟨h, fun _ => rfl⟩, fun e => by simp at e, Frame.refl s, fun _ _ _ _ e => absurd rfl e⟩
  · rw [if_neg h0]
    obtain ⟨hU, hre⟩ : v ∈ c.U ∧ Reach c v := by
      rcases hv with hv | hv
      · exact absurd hv h0
      · exact hv
    obtain ⟨hreg, hage⟩ := h.static v hU
    have hk : c.kind v = Collect.kind c.e c.s0 v := rfl
    simp only
    unfold update2
    by_cases hg : c.e.mode = .minor ∧ s.region v = .gen2
    · rw [if_pos hg]
      rw [hreg] at hg
      have hks : c.kind v = .still := by rw [hk]; unfold kind; rw [if_pos hg]
      obtain ⟨a1, a2, a3, a4, a5⟩ := heapMap_spec sl v h hsl
      exact ⟨.still hU hks rfl, fun _ => ⟨a1, fun a => by rw [a3]⟩, fun e => by simp at e, a2,
        fun a k e ho _ hn => a5 a k e ho hn⟩
    · rw [if_neg hg]
      rw [hreg] at hg
      unfold update3
      by_cases hfx : s.region v = .fixed
      · rw [if_pos hfx]
        rw [hreg] at hfx
        by_cases hm : s.marked v = false ∧ (c.e.mode = .major ∨ s.age v < fixieTenureThreshold)
        · rw [if_pos hm]
          have hkf : c.kind v = .fixed := by
            rw [hk]; unfold kind; rw [if_neg hg, if_pos hfx, if_pos (by rw [← hage]; exact hm.2)]
          have hc := core_mark w h hU hkf hm.1 hre
          obtain ⟨a1, a2, a3, a4, a5⟩ := heapMap_spec sl v hc hsl
          have hdn : Done c { s with marked := upd s.marked v true, markedList := v :: s.markedList } v v :=
            .fixed hU hkf (by simp [upd]) rfl
          exact ⟨done_heapMap a3 a4 hdn, fun _ => ⟨a1, fun a => by simp only [a3]⟩, fun e => by simp at e,
            Frame.trans (show Frame s { s with marked := upd s.marked v true, markedList := v :: s.markedList } from
              ⟨rfl, rfl, rfl, fun _ _ h => h⟩) a2, fun a k e ho _ hn => a5 a k e ho hn⟩
        · rw [if_neg hm]
          obtain ⟨a1, a2, a3, a4, a5⟩ := heapMap_spec sl v h hsl
          have hdn : Done c s v v := by
            by_cases hma : c.e.mode = .major ∨ c.s0.age v < fixieTenureThreshold
            · have hkf : c.kind v = .fixed := by
                rw [hk]; unfold kind; rw [if_neg hg, if_pos hfx, if_pos hma]
              refine .fixed hU hkf ?_ rfl
              cases hmv : s.marked v with
              | true => rfl
              | false => exact absurd ⟨hmv, by rw [hage]; exact hma⟩ hm
            · have hks : c.kind v = .still := by
                rw [hk]; unfold kind; rw [if_neg hg, if_pos hfx, if_neg hma]
              exact .still hU hks rfl
          exact ⟨done_heapMap a3 a4 hdn, fun _ => ⟨a1, fun a => by simp only [a3]⟩, fun e => by simp at e, a2,
            fun a k e ho _ hn => a5 a k e ho hn⟩
      · rw [if_neg hfx]
        rw [hreg] at hfx
        by_cases him : s.region v = .immortal
        · rw [if_pos him]
          rw [hreg] at him
          have hks : c.kind v = .still := by
            rw [hk]; unfold kind; rw [if_neg hg, if_neg hfx, if_pos him]
          obtain ⟨a1, a2, a3, a4, a5⟩ := heapMap_spec sl v h hsl
          exact ⟨.still hU hks rfl, fun _ => ⟨a1, fun a => by rw [a3]⟩, fun e => by simp at e, a2,
            fun a k e ho _ hn => a5 a k e ho hn⟩
        · rw [if_neg him]
          rw [hreg] at him
          have hkm : c.kind v = .movable := by
            rw [hk]; unfold kind; rw [if_neg hg, if_neg hfx, if_neg him]
          cases hf : s.fwd v with
          | some d =>
            simp only
            obtain ⟨a1, a2, a3, a4, a5⟩ := heapMap_spec sl d h hsl
            exact ⟨done_heapMap a3 a4 (.moved hf), fun _ => ⟨a1, fun a => by rw [a3]⟩, fun e => by simp at e, a2,
              fun a k e ho _ hn => a5 a k e ho hn⟩
          | none =>
            simp only
            have hc := core_copy w h hU hkm hf hre
            have hcf : ∀ a d, s.fwd a = some d → (copy c.e s v).1.fwd a = some d := by
              intro a d hd
              have : a ≠ v := by intro e; rw [e, hf] at hd; cases hd
              simp [copy, upd, this, hd]
            obtain ⟨a1, a2, a3, a4, a5⟩ := heapMap_spec sl (copy c.e s v).2 hc (by
              intro a k e
              rcases hsl a k e with ⟨o, h1, h2⟩ | h1
              · exact Or.inl ⟨o, hcf _ _ h1, h2⟩
              · exact Or.inr h1)
            have hdn : Done c (copy c.e s v).1 v (copy c.e s v).2 := .moved (by simp [copy, upd])
            refine ⟨done_heapMap a3 a4 hdn, fun e => by simp at e, fun _ => ⟨hU, hkm, hf, a1, ?_⟩,
              Frame.trans (show Frame s (copy c.e s v).1 from ⟨rfl, rfl, rfl, hcf⟩) a2, fun a k e ho _ hn => a5 a k e ho hn⟩
            intro a d hd
            rw [a3] at hd
            by_cases ha : a = v
            · exact Or.inr ha
            · left; simpa [copy, upd, ha] using hd

/-! ### the walk over one copy -/

/-- the reference that field `k` of `a` held at the beginning -/
def Ctx.ref (c : Ctx) (a : Addr) (k : Nat) : Addr := (c.s0.mem a).ref k

/-- While the copy of `o` is being walked: `T` are the objects copied but not walked before, `P` the pending
fields, `F` the fields of `o` walked so far, with the answers. -/
structure Scan (c : Ctx) (s1 : St) (o : Addr) (T : List Addr) (P : Addr → Nat → Prop) (dn : Slot → Prop) (ip : List Addr)
    (F : List (Nat × Bool)) (s : St) : Prop where
  core : Core c s
    (fun a k => a ∈ T ++ (Bitset.visited F).map (c.ref o) ∨ P a k ∨ (a = o ∧ (k ∉ F.map (·.1) ∨ k ∈ Bitset.visited F)))
    (fun a k => a ∈ T ++ (Bitset.visited F).map (c.ref o) ∨ (a = o ∧ k ∉ F.map (·.1))) dn ip
  frame : Frame s1 s
  nodup : (T ++ (Bitset.visited F).map (c.ref o)).Nodup
  fw : ∀ a ∈ T ++ (Bitset.visited F).map (c.ref o), ∃ d, s.fwd a = some d
  oT : o ∉ T ++ (Bitset.visited F).map (c.ref o)
  new : ∀ a ∈ (Bitset.visited F).map (c.ref o), s1.fwd a = none

theorem scan_step {c s1 o d T P dn ip F s wk} {k : Nat} (w : WF c) (h : Scan c s1 o T P dn ip F s) (hf : s.fwd o = some d)
    (hP : ∀ k, ¬ P o k) (hk : k ∈ (c.s0.mem o).slots) (hkF : k ∉ F.map (·.1)) :
    ∃ v, Scan c s1 o T P dn ip (F ++ [(k, v)]) (scanField c.e d (s, wk) k).1 ∧
      (scanField c.e d (s, wk) k).2 = wk.visit (k, v) ∧ (scanField c.e d (s, wk) k).1.fwd o = some d := by
  obtain ⟨hoU, hom, _⟩ := h.core.fwdU o d hf
  have hval : (s.mem d).ref k = c.ref o k := h.core.fieldRaw o d k hf hk (Or.inr (Or.inr ⟨rfl, Or.inl hkF⟩))
  have hv : c.ref o k = 0 ∨ (c.ref o k ∈ c.U ∧ Reach c (c.ref o k)) := by
    by_cases h0 : c.ref o k = 0
    · exact Or.inl h0
    · refine Or.inr ⟨?_, Reach.step o k (h.core.reach o (Or.inl ⟨d, hf⟩)) (by rw [hom]; simp) hk h0⟩
      rcases w.closed o hoU k hk with h1 | h1
      · exact absurd h1 h0
      · exact h1
  have hu := update_spec w h.core (.field d k) (c.ref o k) hv (by
    intro a j e; cases e; exact Or.inl ⟨o, hf, hk⟩)
  refine ⟨(update c.e s (.field d k) (c.ref o k)).2.2, ?_⟩
  unfold scanField
  simp only [hval]
  generalize update c.e s (.field d k) (c.ref o k) = r at hu
  have hf' : r.1.fwd o = some d := hu.frame.fwd o d hf
  cases hb : r.2.2 with
  | false =>
    obtain ⟨hc, hfe⟩ := hu.stay hb
    have hvis : Bitset.visited (F ++ [(k, false)]) = Bitset.visited F := by rw [Bitset.visited_snoc]; simp
    have ht := core_touch w hc hf' hu.done (hu.rem d k rfl)
    have hs := core_setRef w ht hf' hu.done (by
      rintro ⟨_, h2⟩; exact h2 ⟨rfl, rfl⟩)
    simp only [Bool.false_eq_true, if_false]
    refine ⟨⟨?_, ?_, by rw [hvis]; exact h.nodup, ?_, by rw [hvis]; exact h.oT, by rw [hvis]; exact h.new⟩, trivial, hf'⟩
    · refine core_congr hs ?_ ?_ (fun _ => Iff.rfl)
      · intro a j
        rw [hvis]
        have hno := h.oT
        constructor
        · rintro ⟨h1 | h1 | ⟨rfl, h1⟩, h2⟩
          · exact Or.inl h1
          · exact Or.inr (Or.inl h1)
          · refine Or.inr (Or.inr ⟨rfl, ?_⟩)
            rcases h1 with h1 | h1
            · left
              simp only [List.map_append, List.map_cons, List.map_nil, List.mem_append, List.mem_singleton]
              rintro (h3 | h3)
              · exact h1 h3
              · exact h2 ⟨rfl, h3⟩
            · exact Or.inr h1
        · rintro (h1 | h1 | ⟨rfl, h1⟩)
          · exact ⟨Or.inl h1, fun e => hno (e.1 ▸ h1)⟩
          · exact ⟨Or.inr (Or.inl h1), fun e => hP j (e.1 ▸ h1)⟩
          · rcases h1 with h1 | h1
            · simp only [List.map_append, List.map_cons, List.map_nil, List.mem_append, List.mem_singleton] at h1
              exact ⟨Or.inr (Or.inr ⟨rfl, Or.inl (fun e => h1 (Or.inl e))⟩), fun e => h1 (Or.inr e.2)⟩
            · refine ⟨Or.inr (Or.inr ⟨rfl, Or.inr h1⟩), fun e => ?_⟩
              obtain ⟨f, hf, hfe⟩ := Bitset.visited_mem h1
              exact hkF (List.mem_map.2 ⟨f, hf, by rw [hfe, e.2]⟩)
      · intro a j
        rw [hvis]
        have hno := h.oT
        constructor
        · rintro ⟨h1 | ⟨rfl, h1⟩, h2⟩
          · exact Or.inl h1
          · refine Or.inr ⟨rfl, ?_⟩
            simp only [List.map_append, List.map_cons, List.map_nil, List.mem_append, List.mem_singleton]
            rintro (h3 | h3)
            · exact h1 h3
            · exact h2 ⟨rfl, h3⟩
        · rintro (h1 | ⟨rfl, h1⟩)
          · exact ⟨Or.inl h1, fun e => hno (e.1 ▸ h1)⟩
          · simp only [List.map_append, List.map_cons, List.map_nil, List.mem_append, List.mem_singleton] at h1
            exact ⟨Or.inr ⟨rfl, fun e => h1 (Or.inl e)⟩, fun e => h1 (Or.inr e.2)⟩
    · exact Frame.trans h.frame (Frame.trans hu.frame ⟨rfl, rfl, rfl, fun _ _ h => h⟩)
    · rw [hvis]; intro a ha
      obtain ⟨x, hx⟩ := h.fw a ha
      exact ⟨x, hu.frame.fwd a x hx⟩
  | true =>
    obtain ⟨hU, hm, hn, hc, hfe⟩ := hu.moved hb
    have hvis : Bitset.visited (F ++ [(k, true)]) = Bitset.visited F ++ [k] := by rw [Bitset.visited_snoc]; simp
    have ht := core_touch w hc hf' hu.done (hu.rem d k rfl)
    have hvo : c.ref o k ≠ o := by intro e; rw [e, hf] at hn; cases hn
    have hvn : c.ref o k ∉ T ++ (Bitset.visited F).map (c.ref o) := by
      intro hmem
      obtain ⟨x, hx⟩ := h.fw _ hmem
      rw [hn] at hx; cases hx
    have hlist : T ++ (Bitset.visited (F ++ [(k, true)])).map (c.ref o) =
        (T ++ (Bitset.visited F).map (c.ref o)) ++ [c.ref o k] := by rw [hvis]; simp
    simp only [if_true]
    refine ⟨⟨?_, ?_, ?_, ?_, ?_, ?_⟩, trivial, hf'⟩
    · refine core_congr ht ?_ ?_ (fun _ => Iff.rfl)
      · intro a j
        rw [hlist, hvis]
        simp only [List.mem_append (t := [c.ref o k]), List.mem_singleton]
        constructor
        · rintro ((h1 | h1 | ⟨rfl, h1⟩) | h1)
          · exact Or.inl (Or.inl h1)
          · exact Or.inr (Or.inl h1)
          · refine Or.inr (Or.inr ⟨rfl, ?_⟩)
            by_cases hjk : j = k
            · exact Or.inr (List.mem_append.2 (Or.inr (by simp [hjk])))
            · rcases h1 with h1 | h1
              · left
                simp only [List.map_append, List.map_cons, List.map_nil, List.mem_append, List.mem_singleton]
                rintro (h3 | h3)
                · exact h1 h3
                · exact hjk h3
              · exact Or.inr (List.mem_append.2 (Or.inl h1))
          · exact Or.inl (Or.inr h1)
        · rintro ((h1 | h1) | h1 | ⟨rfl, h1⟩)
          · exact Or.inl (Or.inl h1)
          · exact Or.inr h1
          · exact Or.inl (Or.inr (Or.inl h1))
          · refine Or.inl (Or.inr (Or.inr ⟨rfl, ?_⟩))
            rcases h1 with h1 | h1
            · simp only [List.map_append, List.map_cons, List.map_nil, List.mem_append, List.mem_singleton] at h1
              exact Or.inl (fun e => h1 (Or.inl e))
            · rcases List.mem_append.1 h1 with h1 | h1
              · exact Or.inr h1
              · have : j = k := by simpa using h1
                subst this; exact Or.inl hkF
      · intro a j
        rw [hlist]
        simp only [List.mem_append (t := [c.ref o k]), List.mem_singleton]
        have hno := h.oT
        constructor
        · rintro ⟨(h1 | ⟨rfl, h1⟩) | h1, h2⟩
          · exact Or.inl (Or.inl h1)
          · refine Or.inr ⟨rfl, ?_⟩
            simp only [List.map_append, List.map_cons, List.map_nil, List.mem_append, List.mem_singleton]
            rintro (h3 | h3)
            · exact h1 h3
            · exact h2 ⟨rfl, h3⟩
          · exact Or.inl (Or.inr h1)
        · rintro ((h1 | h1) | ⟨rfl, h1⟩)
          · exact ⟨Or.inl (Or.inl h1), fun e => hno (e.1 ▸ h1)⟩
          · exact ⟨Or.inr h1, fun e => hvo (h1 ▸ e.1)⟩
          · simp only [List.map_append, List.map_cons, List.map_nil, List.mem_append, List.mem_singleton] at h1
            exact ⟨Or.inl (Or.inr ⟨rfl, fun e => h1 (Or.inl e)⟩), fun e => h1 (Or.inr e.2)⟩
    · exact Frame.trans h.frame hu.frame
    · rw [hlist, List.nodup_append]
      refine ⟨h.nodup, by simp, ?_⟩
      intro a ha b hb' e
      have hb2 : b = c.ref o k := by simpa using hb'
      rw [e, hb2] at ha; exact hvn ha
    · rw [hlist]; intro a ha
      rcases List.mem_append.1 ha with ha | ha
      · obtain ⟨x, hx⟩ := h.fw a ha
        exact ⟨x, hu.frame.fwd a x hx⟩
      · have : a = c.ref o k := by simpa using ha
        subst this
        cases hu.done with
        | null h1 => rw [h1] at hU; exact absurd hU w.zero
        | still _ h2 => rw [hm] at h2; cases h2
        | fixed _ h2 => rw [hm] at h2; cases h2
        | moved h1 => exact ⟨_, h1⟩
    · rw [hlist]
      intro hmem
      rcases List.mem_append.1 hmem with h1 | h1
      · exact h.oT h1
      · have : o = c.ref o k := by simpa using h1
        exact hvo this.symm
    · rw [hvis]; intro a ha
      rw [List.map_append] at ha
      rcases List.mem_append.1 ha with ha | ha
      · exact h.new a ha
      · have : a = c.ref o k := by simpa using ha
        subst this
        cases hx : s1.fwd (c.ref o k) with
        | none => rfl
        | some x => rw [h.frame.fwd _ x hx] at hn; cases hn

theorem scan_all {c s1 o d T P dn ip} (w : WF c) (hP : ∀ k, ¬ P o k) : ∀ (ks : List Nat) (F : List (Nat × Bool)) (s : St) (wk : Walker),
    Scan c s1 o T P dn ip F s → s.fwd o = some d → (F.map (·.1) ++ ks).Nodup → (∀ k ∈ ks, k ∈ (c.s0.mem o).slots) →
    ∃ F', F'.map (·.1) = ks ∧ Scan c s1 o T P dn ip (F ++ F') (ks.foldl (scanField c.e d) (s, wk)).1 ∧
      (ks.foldl (scanField c.e d) (s, wk)).2 = F'.foldl Walker.visit wk ∧
      (ks.foldl (scanField c.e d) (s, wk)).1.fwd o = some d := by
  intro ks
  induction ks with
  | nil => intro F s wk h hf _ _; exact ⟨[], rfl, by simpa using h, rfl, hf⟩
  | cons k ks ih =>
    intro F s wk h hf hn hm
    have hkF : k ∉ F.map (·.1) := by
      intro hk
      have := (List.nodup_append.1 hn).2.2 k hk k (by simp)
      exact this rfl
    obtain ⟨v, h1, h2, h3⟩ := scan_step (wk := wk) w h hf hP (hm k (by simp)) hkF
    have hn' : ((F ++ [(k, v)]).map (·.1) ++ ks).Nodup := by simpa using hn
    obtain ⟨F', g1, g2, g3, g4⟩ := ih (F ++ [(k, v)]) _ (scanField c.e d (s, wk) k).2 h1 h3 hn' (fun j hj => hm j (by simp [hj]))
    refine ⟨(k, v) :: F', by simp [g1], ?_, ?_, ?_⟩
    · simpa using g2
    · rw [List.foldl_cons, List.foldl_cons, ← h2]; exact g3
    · rw [List.foldl_cons]; exact g4

/-! ### the stack of pending fields -/

/-- the objects that pending fields refer to -/
def targets (c : Ctx) (st : List (Addr × List Nat)) : List Addr := st.flatMap fun e => e.2.map (c.ref e.1)

def Pend (st : List (Addr × List Nat)) (a : Addr) (k : Nat) : Prop := ∃ e ∈ st, e.1 = a ∧ k ∈ e.2

/-- Between two visits: `X` are objects about to be visited, `st` the pending fields, `sc` what has been
visited. -/
structure Mid (c : Ctx) (s : St) (dn : Slot → Prop) (ip : List Addr) (X : List Addr) (st : List (Addr × List Nat))
    (sc : List Addr) : Prop where
  core : Core c s (fun a k => a ∈ X ++ targets c st ∨ Pend st a k) (fun a _ => a ∈ X ++ targets c st) dn ip
  nodup : (X ++ targets c st).Nodup
  fw : ∀ a ∈ X ++ targets c st, ∃ d, s.fwd a = some d
  ownN : (st.map (·.1)).Nodup
  ownD : ∀ e ∈ st, e.1 ∉ X ++ targets c st
  ownF : ∀ e ∈ st, ∃ d, s.fwd e.1 = some d
  ownS : ∀ e ∈ st, ∀ k ∈ e.2, k ∈ (c.s0.mem e.1).slots
  ksN : ∀ e ∈ st, e.2.Nodup
  scN : sc.Nodup
  scF : ∀ a ∈ sc, ∃ d, s.fwd a = some d
  scD : ∀ a ∈ sc, a ∉ X ++ targets c st

theorem mid_drop {c s dn ip X x st sc} (h : Mid c s dn ip X ((x, []) :: st) sc) : Mid c s dn ip X st sc := by
  have ht : targets c ((x, []) :: st) = targets c st := by simp [targets]
  have hp : ∀ a k, Pend ((x, []) :: st) a k ↔ Pend st a k := by
    intro a k
    constructor
    · rintro ⟨e, he, h1, h2⟩
      rcases List.mem_cons.1 he with rfl | he
      · cases h2
      · exact ⟨e, he, h1, h2⟩
    · rintro ⟨e, he, h1, h2⟩; exact ⟨e, List.mem_cons_of_mem _ he, h1, h2⟩
  obtain ⟨h1, h2, h3, h4, h5, h6, h7, h8, h9, h10, h11⟩ := h
  rw [ht] at h2 h3 h5 h11
  refine ⟨?_, h2, h3, (List.nodup_cons.1 h4).2, fun e he => h5 e (List.mem_cons_of_mem _ he),
    fun e he => h6 e (List.mem_cons_of_mem _ he), fun e he => h7 e (List.mem_cons_of_mem _ he),
    fun e he => h8 e (List.mem_cons_of_mem _ he), h9, h10, h11⟩
  refine core_congr h1 ?_ ?_ (fun _ => Iff.rfl)
  · intro a k; rw [ht, hp]
  · intro a k; rw [ht]

theorem mid_bits {c s dn ip X st sc} (h : Mid c s dn ip X st sc) (b : Addr → Bits.Map) (p : Addr → Addr) :
    Mid c { s with bits := b, parent := p } dn ip X st sc :=
  ⟨core_bits h.core b p, h.nodup, h.fw, h.ownN, h.ownD, h.ownF, h.ownS, h.ksN, h.scN, h.scF, h.scD⟩

theorem descend_spec {c s dn ip x st sc d par} {k : Nat} {ks : List Nat} (w : WF c)
    (h : Mid c s dn ip [] ((x, k :: ks) :: st) sc) (hf : s.fwd x = some d) :
    ∃ r, descend s d k par = some (setRef s d k r, c.ref x k, par) ∧ c.ref x k ≠ 0 ∧
      Mid c (setRef s d k r) dn ip [c.ref x k] ((x, ks) :: st) sc := by
  have ht : targets c ((x, k :: ks) :: st) = c.ref x k :: targets c ((x, ks) :: st) := by simp [targets]
  have hkS : k ∈ (c.s0.mem x).slots := h.ownS _ List.mem_cons_self k List.mem_cons_self
  have hval : (s.mem d).ref k = c.ref x k :=
    h.core.fieldRaw x d k hf hkS (Or.inr ⟨_, List.mem_cons_self, rfl, List.mem_cons_self⟩)
  obtain ⟨r, hr⟩ := h.fw (c.ref x k) (by rw [ht]; simp)
  have hx : x ∉ targets c ((x, k :: ks) :: st) := by simpa using h.ownD _ List.mem_cons_self
  have hxst : ∀ e ∈ st, e.1 ≠ x := by
    intro e he e1
    exact (List.nodup_cons.1 h.ownN).1 (List.mem_map.2 ⟨e, he, e1⟩)
  have hkks : k ∉ ks := (List.nodup_cons.1 (h.ksN _ List.mem_cons_self)).1
  refine ⟨r, ?_, ?_, ?_⟩
  · unfold descend; rw [hval, hr]
  · intro h0; rw [h0] at hr; exact w.zero (h.core.fwdU 0 r hr).1
  · have hlist : [] ++ targets c ((x, k :: ks) :: st) = [c.ref x k] ++ targets c ((x, ks) :: st) := by rw [ht]; rfl
    obtain ⟨h1, h2, h3, h4, h5, h6, h7, h8, h9, h10, h11⟩ := h
    rw [hlist] at h2 h3 h5 h11
    have hcore := core_setRef (k := k) (v := r) w h1 hf (.moved hr) (by rw [List.nil_append]; exact hx)
    refine ⟨?_, h2, h3, h4, ?_, ?_, ?_, ?_, h9, h10, h11⟩
    · refine core_congr hcore ?_ ?_ (fun _ => Iff.rfl)
      · intro a j
        rw [hlist]
        constructor
        · rintro ⟨g1 | ⟨e, he, rfl, hj⟩, g2⟩
          · exact Or.inl g1
          · right
            rcases List.mem_cons.1 he with rfl | he
            · rcases List.mem_cons.1 hj with rfl | hj
              · exact absurd ⟨rfl, rfl⟩ g2
              · exact ⟨_, List.mem_cons_self, rfl, hj⟩
            · exact ⟨e, List.mem_cons_of_mem _ he, rfl, hj⟩
        · rintro (g1 | ⟨e, he, rfl, hj⟩)
          · refine ⟨Or.inl g1, ?_⟩
            rintro ⟨rfl, _⟩
            rw [← hlist] at g1
            exact hx g1
          · rcases List.mem_cons.1 he with rfl | he
            · refine ⟨Or.inr ⟨_, List.mem_cons_self, rfl, List.mem_cons_of_mem _ hj⟩, ?_⟩
              rintro ⟨_, e1⟩; rw [e1] at hj; exact hkks hj
            · refine ⟨Or.inr ⟨e, List.mem_cons_of_mem _ he, rfl, hj⟩, ?_⟩
              rintro ⟨e1, _⟩; exact hxst e he e1
      · intro a j; rw [hlist]
    · intro e he
      rcases List.mem_cons.1 he with rfl | he
      · exact h5 (x, k :: ks) List.mem_cons_self
      · exact h5 e (List.mem_cons_of_mem _ he)
    · intro e he
      rcases List.mem_cons.1 he with rfl | he
      · exact h6 (x, k :: ks) List.mem_cons_self
      · exact h6 e (List.mem_cons_of_mem _ he)
    · intro e he
      rcases List.mem_cons.1 he with rfl | he
      · intro j hj; exact h7 _ List.mem_cons_self j (List.mem_cons_of_mem _ hj)
      · exact h7 e (List.mem_cons_of_mem _ he)
    · intro e he
      rcases List.mem_cons.1 he with rfl | he
      · exact (List.nodup_cons.1 (h8 _ List.mem_cons_self)).2
      · exact h8 e (List.mem_cons_of_mem _ he)

/-- how the stack is kept in the originals -/
def StackOK (c : Ctx) (bits : Addr → Bits.Map) (parent : Addr → Addr) : List (Addr × List Nat) → Addr → Prop
  | [], par => par = 0
  | (o, ks) :: st, par => par = o ∧ ks ≠ [] ∧ ks.Pairwise (· < ·) ∧
      ((∃ a b, (c.s0.mem o).slots = [a, b] ∧ ks = [b]) ∨ (3 ≤ (c.s0.mem o).slots.length ∧ Bitset.Rep (bits o) ks)) ∧
      StackOK c bits parent st (parent o)

theorem stack_frame {c} {b b' : Addr → Bits.Map} {p p' : Addr → Addr} : ∀ {st : List (Addr × List Nat)} {par : Addr},
    StackOK c b p st par → (∀ e ∈ st, b' e.1 = b e.1 ∧ p' e.1 = p e.1) → StackOK c b' p' st par := by
  intro st
  induction st with
  | nil => intro par h _; exact h
  | cons e st ih =>
    intro par h hf
    obtain ⟨o, ks⟩ := e
    obtain ⟨h1, h2, h3, h4, h5⟩ := h
    obtain ⟨f1, f2⟩ := hf (o, ks) List.mem_cons_self
    simp only at f1 f2
    refine ⟨h1, h2, h3, ?_, ?_⟩
    · rw [f1]; exact h4
    · rw [f2]; exact ih h5 (fun e he => hf e (List.mem_cons_of_mem _ he))

structure Head (c : Ctx) (s : St) (dn : Slot → Prop) (ip : List Addr) (st : List (Addr × List Nat)) (sc : List Addr)
    (o par : Addr) : Prop where
  mid : Mid c s dn ip [o] st sc
  stack : StackOK c s.bits s.parent st par

/-- nothing is pending -/
def Quiet (c : Ctx) (s : St) (dn : Slot → Prop) (ip : List Addr) : Prop :=
  Core c s (fun _ _ => False) (fun _ _ => False) dn ip

theorem mid_quiet {c s dn ip sc} (h : Mid c s dn ip [] [] sc) : Quiet c s dn ip := by
  refine core_congr h.core ?_ ?_ (fun _ => Iff.rfl)
  · intro a k; simp [targets, Pend]
  · intro a k; simp [targets]

theorem ascend_spec {c s dn ip st sc par} (w : WF c) (h : Mid c s dn ip [] st sc)
    (hst : StackOK c s.bits s.parent st par) (hne : st ≠ []) :
    ∃ s' o' par' st', ascend s par = some (s', o', par') ∧ o' ≠ 0 ∧ Head c s' dn ip st' sc o' par' ∧
      s'.visitedList = s.visitedList ∧ s'.fwd = s.fwd := by
  match st, hne with
  | (x, ks) :: st, _ =>
    obtain ⟨rfl, h2, h3, h4, h5⟩ := hst
    obtain ⟨d, hd⟩ := h.ownF _ List.mem_cons_self
    simp only at hd
    have hsl := (h.core.content par d hd).2
    unfold ascend
    rw [hd]
    simp only
    rw [hsl]
    rcases h4 with ⟨a, b, h4, rfl⟩ | ⟨h4, hrep⟩
    · rw [h4]
      simp only
      obtain ⟨r, g1, g2, g3⟩ := descend_spec (par := s.parent par) w h hd
      exact ⟨_, _, _, st, g1, g2, ⟨mid_drop g3, h5⟩, rfl, rfl⟩
    · match hS : (c.s0.mem par).slots, h4 with
      | a :: b :: e :: l, _ =>
        simp only
        match ks, h2 with
        | k :: ks, _ =>
          obtain ⟨p', n1, n2⟩ := Bitset.next_spec hrep h3
          rw [n1]
          simp only
          obtain ⟨m1, m2, _⟩ := Bitset.hasMore_spec n2
          have hmid := mid_bits h (upd s.bits par (Bitset.hasMore p').2) s.parent
          obtain ⟨r, g1, g2, g3⟩ := descend_spec (par := if (Bitset.hasMore p').1 = true then par else s.parent par) w hmid hd
          have hnot : ∀ e ∈ st, e.1 ≠ par := by
            intro e he e1
            exact (List.nodup_cons.1 h.ownN).1 (List.mem_map.2 ⟨e, he, e1⟩)
          have hst' : StackOK c (upd s.bits par (Bitset.hasMore p').2) s.parent st (s.parent par) :=
            stack_frame h5 (fun e he => ⟨by simp [upd, hnot e he], rfl⟩)
          cases ks with
          | nil =>
            have hm : ¬ ((Bitset.hasMore p').1 = true) := by rw [m1]; simp
            refine ⟨_, _, _, st, g1, g2, ⟨mid_drop g3, ?_⟩, rfl, rfl⟩
            rw [if_neg hm]; exact hst'
          | cons k2 ks =>
            have hm : (Bitset.hasMore p').1 = true := m1.2 (by simp)
            refine ⟨_, _, _, (par, k2 :: ks) :: st, g1, g2, ⟨g3, ?_⟩, rfl, rfl⟩
            rw [if_pos hm]
            refine ⟨rfl, by simp, (List.pairwise_cons.1 h3).2, Or.inr ⟨by rw [hS]; simp, ?_⟩, hst'⟩
            show Bitset.Rep (upd s.bits par (Bitset.hasMore p').2 par) (k2 :: ks)
            rw [show upd s.bits par (Bitset.hasMore p').2 par = (Bitset.hasMore p').2 from by simp [upd]]
            exact m2

theorem core_restrict {c s raw un dn raw' un' ip} (h : Core c s raw un dn ip)
    (hr : ∀ a k, k ∈ (c.s0.mem a).slots → (raw a k ↔ raw' a k))
    (hu : ∀ a k, k ∈ (c.s0.mem a).slots → (un a k ↔ un' a k)) : Core c s raw' un' dn ip :=
  ⟨h.static, h.static0, h.fwdU, h.inj, h.content, h.outside,
    fun a d k h1 h2 h3 => h.fieldRaw a d k h1 h2 ((hr a k h2).2 h3),
    fun a d k h1 h2 h3 => h.fieldDone a d k h1 h2 (fun e => h3 ((hr a k h2).1 e)), h.movRaw, h.outRaw, h.outDone,
    fun a d k h1 h2 h3 => h.known a d k h1 h2 (fun e => h3 ((hu a k h2).1 e)),
    fun a d k r h1 h2 h3 => h.remField a d k r h1 h2 (fun e => h3 ((hu a k h2).1 e)),
    h.remOuter, h.markedOK, h.markedKind, h.listNodup, h.visDone, h.dnSub, h.reach, h.remOnly, h.place⟩

theorem visited_sub {F : List (Nat × Bool)} {k : Nat} (h : k ∈ Bitset.visited F) : k ∈ F.map (·.1) := by
  obtain ⟨f, hf, rfl⟩ := Bitset.visited_mem h
  exact List.mem_map.2 ⟨f, hf, rfl⟩

/-- the walk over the copy of `o` is complete -/
theorem scan_mid {c s1 o st dn ip F s sc d} (w : WF c) (h : Scan c s1 o (targets c st) (Pend st) dn ip F s)
    (hF : F.map (·.1) = (c.s0.mem o).slots) (hf : s.fwd o = some d)
    (hm : Mid c s1 dn ip [o] st sc) : Mid c s dn ip [] ((o, Bitset.visited F) :: st) (o :: sc) := by
  obtain ⟨hoU, _, _⟩ := h.core.fwdU o d hf
  have ht : [] ++ targets c ((o, Bitset.visited F) :: st) = (Bitset.visited F).map (c.ref o) ++ targets c st := by
    simp [targets]
  have hmem : ∀ a, a ∈ [] ++ targets c ((o, Bitset.visited F) :: st) ↔ a ∈ targets c st ++ (Bitset.visited F).map (c.ref o) := by
    intro a; rw [ht, List.mem_append, List.mem_append]; exact Or.comm
  have hpend : ∀ a k, Pend ((o, Bitset.visited F) :: st) a k ↔ (Pend st a k ∨ (a = o ∧ k ∈ Bitset.visited F)) := by
    intro a k
    constructor
    · rintro ⟨e, he, rfl, hk⟩
      rcases List.mem_cons.1 he with rfl | he
      · exact Or.inr ⟨rfl, hk⟩
      · exact Or.inl ⟨e, he, rfl, hk⟩
    · rintro (⟨e, he, rfl, hk⟩ | ⟨rfl, hk⟩)
      · exact ⟨e, List.mem_cons_of_mem _ he, rfl, hk⟩
      · exact ⟨_, List.mem_cons_self, rfl, hk⟩
  have hou : o ∉ targets c st := by
    have := (List.nodup_cons.1 (show (o :: targets c st).Nodup from hm.nodup)).1
    exact this
  have hst : ∀ e ∈ st, e.1 ≠ o := by
    intro e he e1
    have := hm.ownD e he
    rw [e1] at this
    exact this (by simp)
  -- objects copied during the walk were not copied before
  have hnew : ∀ a, (∃ x, s1.fwd a = some x) → a ∉ targets c st → a ∉ [] ++ targets c ((o, Bitset.visited F) :: st) := by
    rintro a ⟨x, hx⟩ h1 h3
    rcases List.mem_append.1 ((hmem a).1 h3) with h4 | h4
    · exact h1 h4
    · rw [h.new a h4] at hx; cases hx
  have hmono : ∀ a, (∃ x, s1.fwd a = some x) → ∃ x, s.fwd a = some x := by
    rintro a ⟨x, hx⟩; exact ⟨x, h.frame.fwd a x hx⟩
  have hof : ∃ x, s1.fwd o = some x := hm.fw o (by simp)
  have hsort := w.sorted o hoU
  have hvN : (Bitset.visited F).Nodup := by
    have h1 : (F.map (·.1)).Nodup := by
      rw [hF]; exact hsort.imp (fun hlt => Nat.ne_of_lt hlt)
    unfold Bitset.visited
    exact List.Pairwise.sublist (List.Sublist.map _ List.filter_sublist) h1
  refine ⟨?_, ?_, ?_, ?_, ?_, ?_, ?_, ?_, ?_, ?_, ?_⟩
  · refine core_restrict h.core ?_ ?_
    · intro a k hk
      rw [hmem, hpend, hF]
      constructor
      · rintro (h1 | h1 | ⟨rfl, h1⟩)
        · exact Or.inl h1
        · exact Or.inr (Or.inl h1)
        · rcases h1 with h1 | h1
          · exact absurd hk h1
          · exact Or.inr (Or.inr ⟨rfl, h1⟩)
      · rintro (h1 | h1 | ⟨rfl, h1⟩)
        · exact Or.inl h1
        · exact Or.inr (Or.inl h1)
        · exact Or.inr (Or.inr ⟨rfl, Or.inr h1⟩)
    · intro a k hk
      rw [hmem, hF]
      constructor
      · rintro (h1 | ⟨rfl, h1⟩)
        · exact h1
        · exact absurd hk h1
      · exact Or.inl
  · rw [ht]
    have := h.nodup
    rw [List.nodup_append] at this ⊢
    exact ⟨this.2.1, this.1, fun a ha b hb e => this.2.2 b hb a ha e.symm⟩
  · intro a ha; exact h.fw a ((hmem a).1 ha)
  · rw [List.map_cons, List.nodup_cons]
    refine ⟨?_, hm.ownN⟩
    intro hmo
    obtain ⟨e, he, e1⟩ := List.mem_map.1 hmo
    exact hst e he e1
  · intro e he
    rcases List.mem_cons.1 he with rfl | he
    · intro h1; exact h.oT ((hmem _).1 h1)
    · exact hnew e.1 (hm.ownF e he) (fun h1 => hm.ownD e he (by simp [h1]))
  · intro e he
    rcases List.mem_cons.1 he with rfl | he
    · exact ⟨d, hf⟩
    · exact hmono _ (hm.ownF e he)
  · intro e he
    rcases List.mem_cons.1 he with rfl | he
    · intro k hk
      have := visited_sub hk
      rw [hF] at this; exact this
    · exact hm.ownS e he
  · intro e he
    rcases List.mem_cons.1 he with rfl | he
    · exact hvN
    · exact hm.ksN e he
  · rw [List.nodup_cons]
    exact ⟨fun h1 => hm.scD o h1 (by simp), hm.scN⟩
  · intro a ha
    rcases List.mem_cons.1 ha with rfl | ha
    · exact ⟨d, hf⟩
    · exact hmono _ (hm.scF a ha)
  · intro a ha
    rcases List.mem_cons.1 ha with rfl | ha
    · intro h1; exact h.oT ((hmem _).1 h1)
    · exact hnew a (hm.scF a ha) (fun h1 => hm.scD a ha (by simp [h1]))

theorem visit_spec {c s dn ip st sc o par} (w : WF c) (h : Head c s dn ip st sc o par) :
    ∃ s' o' par', visit c.e s o par = some (s', o', par') ∧ s'.visitedList = s.visitedList ∧
      (∀ a d, s.fwd a = some d → s'.fwd a = some d) ∧
      ((o' = 0 ∧ Quiet c s' dn ip) ∨ (o' ≠ 0 ∧ ∃ st', Head c s' dn ip st' (o :: sc) o' par')) := by
  obtain ⟨d, hd⟩ := h.mid.fw o (by simp)
  obtain ⟨hoU, hom, _⟩ := h.mid.core.fwdU o d hd
  have hou : o ∉ targets c st := (List.nodup_cons.1 (show (o :: targets c st).Nodup from h.mid.nodup)).1
  have hst : ∀ e ∈ st, e.1 ≠ o := by
    intro e he e1
    have := h.mid.ownD e he
    rw [e1] at this
    exact this (by simp)
  have hP : ∀ k, ¬ Pend st o k := by
    rintro k ⟨e, he, e1, _⟩; exact hst e he e1
  have h0 : Scan c s o (targets c st) (Pend st) dn ip [] s := by
    refine ⟨core_congr h.mid.core ?_ ?_ (fun _ => Iff.rfl), Frame.refl s, ?_, ?_, ?_, ?_⟩
    · intro a k
      simp only [List.cons_append, List.nil_append, List.mem_cons, Bitset.visited, List.filter_nil, List.map_nil,
        List.append_nil, List.not_mem_nil, not_false_eq_true, true_or, and_true]
      constructor
      · rintro ((h1 | h1) | h1)
        · exact Or.inr (Or.inr h1)
        · exact Or.inl h1
        · exact Or.inr (Or.inl h1)
      · rintro (h1 | h1 | h1)
        · exact Or.inl (Or.inr h1)
        · exact Or.inr h1
        · exact Or.inl (Or.inl h1)
    · intro a k
      simp only [List.cons_append, List.nil_append, List.mem_cons, Bitset.visited, List.filter_nil, List.map_nil,
        List.append_nil, List.not_mem_nil, not_false_eq_true, and_true]
      exact Or.comm
    · have : (o :: targets c st).Nodup := h.mid.nodup
      simpa [Bitset.visited] using (List.nodup_cons.1 this).2
    · intro a ha; exact h.mid.fw a (by simp [Bitset.visited] at ha; simp [ha])
    · simpa [Bitset.visited] using hou
    · intro a ha; simp [Bitset.visited] at ha
  have hsl := (h.mid.core.content o d hd).2
  have hsn : (c.s0.mem o).slots.Nodup := (w.sorted o hoU).imp (fun hlt => Nat.ne_of_lt hlt)
  obtain ⟨F, g1, g2, g3, g4⟩ := scan_all w hP (c.s0.mem o).slots [] s ⟨s.bits o, 0, 0, 0, 0, 0⟩ h0 hd (by simpa using hsn)
    (fun k hk => hk)
  rw [List.nil_append] at g2
  have hwin : Bitset.WInv (Bitset.scanObject (s.bits o) F) F := by
    apply Bitset.scanObject_winv
    · rw [g1]; exact w.sorted o hoU
    · intro f hf
      exact w.bound o hoU f.1 (by rw [← g1]; exact List.mem_map.2 ⟨f, hf, rfl⟩)
  unfold Bitset.scanObject at hwin
  rw [← g3] at hwin
  unfold visit
  rw [hd]
  simp only
  have hsa : scanAll c.e s o d = (c.s0.mem o).slots.foldl (scanField c.e d) (s, ⟨s.bits o, 0, 0, 0, 0, 0⟩) := by
    unfold scanAll; rw [hsl]
  rw [hsa]
  generalize (c.s0.mem o).slots.foldl (scanField c.e d) (s, ⟨s.bits o, 0, 0, 0, 0, 0⟩) = r at g2 g3 g4 hwin
  have hmid := scan_mid w g2 g1 g4 h.mid
  have hfr := g2.frame
  -- the stack below is not touched
  have hstk : ∀ p' : Addr → Addr, (∀ x, x ≠ o → p' x = s.parent x) →
      StackOK c (upd r.1.bits o r.2.bits) p' st par := by
    intro p' hp'
    refine stack_frame h.stack (fun e he => ⟨?_, hp' _ (hst e he)⟩)
    rw [hfr.bits]; simp [upd, hst e he]
  have hmid1 := mid_bits hmid (upd r.1.bits o r.2.bits) r.1.parent
  have hvl : (Bitset.visited F).length ≤ F.length := by
    unfold Bitset.visited
    rw [List.length_map]; exact List.length_filter_le _ _
  have hFlen : F.length = (c.s0.mem o).slots.length := by rw [← g1, List.length_map]
  match hV : Bitset.visited F with
  | [] =>
    have hz : r.2.visits = 0 := by rw [hwin.visits, hV]; rfl
    rw [if_pos hz]
    rw [hV] at hmid1
    have hm2 := mid_drop hmid1
    by_cases hp : par = 0
    · rw [if_pos hp]
      have hstn : st = [] := by
        match st, h.stack, h.mid.ownF with
        | [], _, _ => rfl
        | (x, ks) :: st, hs, hF =>
          obtain ⟨d', hd'⟩ := hF _ List.mem_cons_self
          have : x = 0 := by rw [← hs.1]; exact hp
          simp only at hd'
          rw [this] at hd'
          exact absurd (h.mid.core.fwdU 0 d' hd').1 w.zero
      rw [hstn] at hm2
      refine ⟨_, 0, 0, rfl, hfr.vis, hfr.fwd, Or.inl ⟨rfl, mid_quiet hm2⟩⟩
    · rw [if_neg hp]
      have hne : st ≠ [] := by
        intro e
        have := h.stack
        rw [e] at this
        exact hp this
      obtain ⟨s', o', par', st', a1, a2, a3, a4, a5⟩ := ascend_spec w hm2 (hstk r.1.parent (fun x _ => by rw [hfr.parent])) hne
      refine ⟨s', o', par', a1, a4.trans hfr.vis, ?_, Or.inr ⟨a2, st', a3⟩⟩
      rw [a5]; exact hfr.fwd
  | [k] =>
    have hz : r.2.visits = 1 := by rw [hwin.visits, hV]; rfl
    have hfi : r.2.first = k := by rw [hwin.first, hV]; rfl
    rw [if_neg (by omega), if_pos hz, hfi]
    rw [hV] at hmid1
    obtain ⟨x, b1, b2, b3⟩ := descend_spec (par := par) w hmid1 g4
    exact ⟨_, _, _, b1, hfr.vis, hfr.fwd, Or.inr ⟨b2, st, ⟨mid_drop b3, hstk r.1.parent (fun x _ => by rw [hfr.parent])⟩⟩⟩
  | k :: k2 :: ks =>
    have hz : r.2.visits = ks.length + 2 := by rw [hwin.visits, hV]; rfl
    have hfi : r.2.first = k := by rw [hwin.first, hV]; rfl
    rw [if_neg (by omega), if_neg (by omega), hfi]
    have hmid2 := mid_bits hmid (upd r.1.bits o r.2.bits) (upd r.1.parent o par)
    rw [hV] at hmid2
    obtain ⟨x, b1, b2, b3⟩ := descend_spec (par := o) w hmid2 g4
    have hso := hwin.sorted
    rw [hV] at hso
    refine ⟨_, _, _, b1, hfr.vis, hfr.fwd, Or.inr ⟨b2, (o, k2 :: ks) :: st, ⟨b3, ?_⟩⟩⟩
    refine ⟨rfl, by simp, (List.pairwise_cons.1 hso).2, ?_, ?_⟩
    · rw [hV] at hvl
      simp only [List.length_cons] at hvl
      by_cases h2 : F.length = 2
      · left
        -- both fields are to be visited
        have hks : ks = [] := by
          cases ks with
          | nil => rfl
          | cons _ _ => simp at hvl; omega
        subst hks
        match F, h2, hV with
        | [(a, va), (b, vb)], _, hV =>
          refine ⟨a, b, by rw [← g1]; rfl, ?_⟩
          cases va <;> cases vb <;> simp [Bitset.visited] at hV
          rw [hV.2]
      · right
        refine ⟨by omega, ?_⟩
        obtain ⟨_, l2, f, l3, l4⟩ := hwin.late (by rw [hwin.total]; omega) (by omega)
        rw [hV] at l2
        show Bitset.Rep (upd r.1.bits o r.2.bits o) (k2 :: ks)
        rw [show upd r.1.bits o r.2.bits o = r.2.bits from by simp [upd]]
        refine Bitset.build_rep l2 ?_
        have := w.bound o hoU f.1 (by rw [← g1]; exact List.mem_map.2 ⟨f, l3, rfl⟩)
        omega
    · show StackOK c (upd r.1.bits o r.2.bits) (upd r.1.parent o par) st (upd r.1.parent o par o)
      rw [show upd r.1.parent o par o = par from by simp [upd]]
      exact hstk _ (fun x hx => by rw [hfr.parent]; simp [upd, hx])

theorem nodup_subset_length {α : Type} [DecidableEq α] : ∀ {l m : List α}, l.Nodup → (∀ x ∈ l, x ∈ m) → l.length ≤ m.length := by
  intro l
  induction l with
  | nil => intro m _ _; simp
  | cons a l ih =>
    intro m hn hs
    have ha := hs a List.mem_cons_self
    have h1 : ∀ x ∈ l, x ∈ m.erase a := by
      intro x hx
      have hxa : x ≠ a := by intro e; rw [e] at hx; exact (List.nodup_cons.1 hn).1 hx
      rw [List.mem_erase_of_ne hxa]
      exact hs x (List.mem_cons_of_mem _ hx)
    have h2 := ih (List.nodup_cons.1 hn).2 h1
    rw [List.length_erase_of_mem ha] at h2
    have : 0 < m.length := List.length_pos_of_mem ha
    simp only [List.length_cons]
    omega

theorem loop_spec {c dn ip} (w : WF c) : ∀ (n : Nat) (s : St) (st : List (Addr × List Nat)) (sc : List Addr) (o par : Addr),
    Head c s dn ip st sc o par → c.U.length ≤ n + sc.length →
    ∃ s', loop c.e n s o par = some s' ∧ Quiet c s' dn ip ∧ s'.visitedList = s.visitedList ∧
      (∀ a d, s.fwd a = some d → s'.fwd a = some d) := by
  intro n
  induction n with
  | zero =>
    intro s st sc o par h hn
    exfalso
    have hsub : ∀ x ∈ o :: sc, x ∈ c.U := by
      intro x hx
      rcases List.mem_cons.1 hx with rfl | hx
      · obtain ⟨d, hd⟩ := h.mid.fw x (by simp)
        exact (h.mid.core.fwdU x d hd).1
      · obtain ⟨d, hd⟩ := h.mid.scF x hx
        exact (h.mid.core.fwdU x d hd).1
    have hnd : (o :: sc).Nodup := List.nodup_cons.2 ⟨fun hx => h.mid.scD o hx (by simp), h.mid.scN⟩
    have := nodup_subset_length hnd hsub
    simp at this
    omega
  | succ n ih =>
    intro s st sc o par h hn
    obtain ⟨s', o', par', h1, h2, h3, h4⟩ := visit_spec w h
    simp only [loop, h1]
    rcases h4 with ⟨h4, h5⟩ | ⟨h4, st', h5⟩
    · rw [if_pos h4]; exact ⟨s', rfl, h5, h2, h3⟩
    · rw [if_neg h4]
      obtain ⟨s'', a1, a2, a3, a4⟩ := ih s' st' (o :: sc) o' par' h5 (by simp; omega)
      exact ⟨s'', a1, a2, a3.trans h2, fun a d e => a4 a d (h3 a d e)⟩

end Avian.Collect
