import Verif.Conc.ThreadTree

/-
Lemmas about `Conc/Threads`: what the operations do to the forest.
-/
namespace Avian.Threads

theorem nodup_length_le : ∀ {l m : List Nat}, l.Nodup → (∀ x ∈ l, x ∈ m) → l.length ≤ m.length
  | [], _, _, _ => by simp
  | a :: l, m, hn, hs => by
    obtain ⟨h1, h2⟩ := List.nodup_cons.1 hn
    have := nodup_length_le (m := m.erase a) h2 (fun x hx =>
      (List.mem_erase_of_ne (show x ≠ a from fun e => h1 (e ▸ hx))).2 (hs x (List.mem_cons_of_mem _ hx)))
    rw [List.length_erase_of_mem (hs a (List.mem_cons_self ..))] at this
    have := List.length_pos_of_mem (hs a (List.mem_cons_self ..))
    simp only [List.length_cons]
    omega

/-- Nothing but the child link of `q` and the links of threads in `l` differs. -/
structure Keeps (s s' : St) (q : Nat) (l : List Nat) : Prop where
  others : ∀ x, x ∉ q :: l → s'.parent x = s.parent x ∧ s'.peer x = s.peer x ∧ s'.child x = s.child x
  parent : s'.parent q = s.parent q
  peer : s'.peer q = s.peer q
  root : s'.root = s.root

theorem Keeps.refl (s : St) (q : Nat) (l : List Nat) : Keeps s s q l := ⟨fun _ _ => ⟨rfl, rfl, rfl⟩, rfl, rfl, rfl⟩

/-- Disposing of a thread whose parent is `q`. -/
theorem dispose_local {s : St} {o q : Nat} {a k b : F} (hs : Seg s q (s.child q) (app a (.node o k b)) 0)
    (hnd : (ids (app a (.node o k b))).Nodup) (hq : q ∉ ids (app a (.node o k b))) (hqa : q ∈ s.alloc)
    (hq0 : q ≠ 0) (hna : s.alloc.Nodup) :
    ∃ s', dispose s o = some s' ∧ Seg s' q (s'.child q) (revOnto k (app a b)) 0 ∧
      Keeps s s' q (ids (app a (.node o k b))) ∧
      s'.alloc = s.alloc.erase o ∧ s'.threadCount = s.threadCount - 1 ∧ s'.log = s.log := by
  have hsub := fun x hx => (seg_alloc hs x hx).1
  have hlen := nodup_length_le hnd hsub
  obtain ⟨m, h1, h2, h3, h4, h5, h6, h7⟩ := seg_app.1 hs
  subst h2
  have hwa := width_le a
  have hwk := width_le k
  have hl : (ids (app a (.node m k b))).length = (ids a).length + ((ids k).length + (ids b).length + 1) := by
    rw [ids_app]; simp [ids]
  obtain ⟨s1, u1, u2, u3, u4, u5, u6, u7, u8, u9, u10, u11⟩ := unlink_spec (n := s.alloc.length + 1) hs hnd hq hqa (by omega)
  rw [ids_app] at hnd hq
  obtain ⟨nd1, nd2, nd3⟩ := List.nodup_append.1 hnd
  obtain ⟨n1, n2, n3, n4, n5⟩ := nodup_node nd2
  have hqm : q ≠ m := fun e => hq (by rw [e]; simp [ids])
  have hqk : q ∉ ids k := fun e => hq (by simp [ids, e])
  have hqb : q ∉ ids b := fun e => hq (by simp [ids, e])
  have hqa' : q ∉ ids a := fun e => hq (by simp [e])
  obtain ⟨s2, a1, a2, a3, a4, a5, a6, a7, a8, a9⟩ := adopt_spec (n := s.alloc.length + 1) (x := app a b) (k := k)
    (s := s1) (o := m) (by omega) u3 u2 n3 hqk
    (by rw [ids_app]; simp [hqa', hqb])
    (by
      intro y hy
      rw [ids_app, List.mem_append, not_or]
      exact ⟨fun e => nd3 y e y (by simp [ids, hy]) rfl, n5 y hy⟩)
    (by rw [u9]; exact hqa)
  have hm2 : m ∈ s2.alloc := by rw [a7, u9]; exact h4
  refine ⟨{ s2 with alloc := s2.alloc.erase m, threadCount := s2.threadCount - 1 }, ?_, ?_, ⟨?_, ?_, ?_, ?_⟩, ?_, ?_, ?_⟩
  · unfold dispose
    simp only [rd, if_pos h4, if_pos hqa, h5, if_pos hq0, Option.bind_eq_bind, Option.bind_some, u1]
    rw [if_pos (show m ∈ s1.alloc by rw [u9]; exact h4)]
    simp only [Option.bind_some, a1]
    exact if_pos hm2
  · refine seg_frame (s := s2) a2 (fun x hx => ⟨rfl, rfl, rfl, ?_⟩)
    refine (List.mem_erase_of_ne ?_).2 (seg_alloc a2 x hx).1
    intro e
    subst e
    have := (ids_revOnto k (app a b)).subset hx
    rw [ids_app] at this
    simp only [List.mem_append] at this
    rcases this with e | e | e
    · exact n1 e
    · exact nd3 x e x (by simp [ids]) rfl
    · exact n2 e
  · intro x hx
    rw [ids_app] at hx
    simp only [List.mem_cons, List.mem_append, not_or, ids] at hx
    obtain ⟨x1, x2, x3, x4, x5⟩ := hx
    have e1 := a3 x (by simp [x1, x4])
    have e2 := u4 x (by simp [x1, x2])
    exact ⟨e1.1.trans e2.1, e1.2.1.trans e2.2.1, e1.2.2.trans e2.2.2⟩
  · show s2.parent q = _
    rw [a4, u5]
  · show s2.peer q = _
    rw [a5, u7]
  · show s2.root = _
    rw [a6, u8]
  · show s2.alloc.erase m = _
    rw [a7, u9]
  · show s2.threadCount - 1 = _
    rw [a8, u10]
  · show s2.log = _
    rw [a9, u11]

/-! ### Visiting all threads -/

/-- How many of a list satisfy a predicate. -/
def tally (z : Nat → Bool) (l : List Nat) : Nat := (l.filter z).length

/-- What `killZombies` does to the children of `q`, from some point on. -/
theorem killKids (z : Nat → Bool) : ∀ (f a : F) (s : St) (q p n : Nat),
    Seg s q (s.child q) a p → Seg s q p f 0 → (ids a ++ ids f).Nodup → q ∉ ids a ++ ids f → q ∈ s.alloc → q ≠ 0 →
    s.alloc.Nodup → 2 * (ids f).length < n →
    ∃ s' f', visitKids (fun s o => if z o then dispose s o else some s) n s p = some s' ∧
      Seg s' q (s'.child q) f' 0 ∧ (ids f').Perm (ids a ++ (ids f).filter (fun x => !z x)) ∧
      Keeps s s' q (ids a ++ ids f) ∧ s'.alloc.Nodup ∧
      (∀ x, x ∈ s'.alloc ↔ x ∈ s.alloc ∧ ¬ (x ∈ ids f ∧ z x = true)) ∧
      s'.threadCount = s.threadCount - tally z (ids f) ∧ s'.log = s.log
  | .nil, a, s, q, p, n, ha, hf, hnd, hq, hqa, hq0, hna, hn => by
    cases n with
    | zero => simp at hn
    | succ n =>
      have hp : p = 0 := hf
      subst hp
      refine ⟨s, a, by simp [visitKids], ha, by simp [ids], Keeps.refl _ _ _, hna, by simp [ids], by simp [ids, tally], rfl⟩
  | .node c k r, a, s, q, p, n, ha, ⟨h1, h2, h3, h4, h5, h6⟩, hnd, hq, hqa, hq0, hna, hn => by
    subst h1
    simp only [ids, List.length_cons, List.length_append] at hn
    obtain ⟨nd1, nd2, nd3⟩ := List.nodup_append.1 hnd
    obtain ⟨n1, n2, n3, n4, n5⟩ := nodup_node (i := p) (k := k) (r := r) nd2
    simp only [ids, List.mem_append, List.mem_cons, not_or] at hq
    obtain ⟨q1, q2, q3, q4⟩ := hq
    have hpa : p ∉ ids a := fun e => nd3 p e p (by simp [ids]) rfl
    have hka : ∀ x ∈ ids k, x ∉ ids a := fun x hx e => nd3 x e x (by simp [ids, hx]) rfl
    have hra : ∀ x ∈ ids r, x ∉ ids a := fun x hx e => nd3 x e x (by simp [ids, hx]) rfl
    -- the children of the first one
    obtain ⟨m, rfl⟩ : ∃ m, n = m + 2 := ⟨n - 2, by omega⟩
    obtain ⟨s1, k1, v1, v2, v3, v4, v5, v6, v7, v8⟩ := killKids z k .nil s p (s.child p) m rfl h5
      (by simpa [ids] using n3) (by simpa [ids] using n1) h3 h2 hna (by omega)
    have v4' : ∀ x, x ≠ p → x ∉ ids k → s1.parent x = s.parent x ∧ s1.peer x = s.peer x ∧ s1.child x = s.child x :=
      fun x e1 e2 => v4.others x (by simp [ids, e1, e2])
    have keepAlloc : ∀ x, x ∈ s.alloc → x ∉ ids k → x ∈ s1.alloc := fun x e1 e2 => (v6 x).2 ⟨e1, fun e => e2 e.1⟩
    have k1sub : ∀ x ∈ ids k1, x ∈ ids k ∧ z x = false := by
      intro x hx
      have := v3.subset hx
      simp only [ids, List.nil_append, List.mem_filter] at this
      exact ⟨this.1, by simpa using this.2⟩
    have k1nd : (ids k1).Nodup := by
      rw [v3.nodup_iff]; simp only [ids, List.nil_append]; exact n3.filter _
    have hp1 : p ∈ s1.alloc := keepAlloc p h3 n1
    have hq1 := v4' q q2 q3
    have ha1 : Seg s1 q (s1.child q) a p := by
      rw [hq1.2.2]
      refine seg_frame ha (fun x hx => ?_)
      have hxk : x ∉ ids k := fun e => hka x e hx
      have := v4' x (fun e => hpa (e ▸ hx)) hxk
      exact ⟨this.1, this.2.1, this.2.2, keepAlloc x (seg_alloc ha x hx).1 hxk⟩
    have hr1 : Seg s1 q (s.peer p) r 0 := by
      refine seg_frame h6 (fun x hx => ?_)
      have hxk : x ∉ ids k := fun e => n5 x e hx
      have := v4' x (fun e => n2 (e ▸ hx)) hxk
      exact ⟨this.1, this.2.1, this.2.2, keepAlloc x (seg_alloc h6 x hx).1 hxk⟩
    have hc1 : Seg s1 q p (.node p k1 r) 0 := by
      refine ⟨rfl, h2, hp1, v4.parent.trans h4, v2, ?_⟩
      rw [v4.peer]; exact hr1
    have hstep : visitKids (fun s o => if z o then dispose s o else some s) (m + 2) s p =
        ((if z p then dispose s1 p else some s1).bind fun s2 =>
          visitKids (fun s o => if z o then dispose s o else some s) (m + 1) s2 (s.peer p)) := by
      show (if p = 0 then some s else (rd s s.peer p).bind fun next =>
        (visitAll (fun s o => if z o then dispose s o else some s) (m + 1) s p).bind fun s2 =>
          visitKids (fun s o => if z o then dispose s o else some s) (m + 1) s2 next) = _
      rw [if_neg h2]
      simp only [rd, if_pos h3, Option.bind_some]
      have : visitAll (fun s o => if z o then dispose s o else some s) (m + 1) s p =
          (if z p then dispose s1 p else some s1) := by
        show ((rd s s.child p).bind fun c => (visitKids (fun s o => if z o then dispose s o else some s) m s c).bind fun s =>
          if z p then dispose s p else some s) = _
        simp only [rd, if_pos h3, Option.bind_some, v1]
      rw [this]
    have hqall : q ∈ s1.alloc := keepAlloc q hqa q3
    by_cases hz : z p = true
    · -- it goes
      have hwhole : Seg s1 q (s1.child q) (app a (.node p k1 r)) 0 := seg_app.2 ⟨p, ha1, hc1⟩
      have hnd1 : (ids (app a (.node p k1 r))).Nodup := by
        rw [ids_app, List.nodup_append]
        refine ⟨nd1, ?_, ?_⟩
        · simp only [ids, List.nodup_cons, List.mem_append, not_or, List.nodup_append]
          exact ⟨⟨fun e => n1 (k1sub p e).1, n2⟩, k1nd, n4, fun x hx y hy e => n5 x (k1sub x hx).1 (e ▸ hy)⟩
        · intro x hx y hy e
          subst e
          simp only [ids, List.mem_cons, List.mem_append] at hy
          rcases hy with e | e | e
          · exact hpa (e ▸ hx)
          · exact hka x (k1sub x e).1 hx
          · exact hra x e hx
      have hq1' : q ∉ ids (app a (.node p k1 r)) := by
        rw [ids_app]
        simp only [ids, List.mem_append, List.mem_cons, not_or]
        exact ⟨q1, q2, fun e => q3 (k1sub q e).1, q4⟩
      obtain ⟨s2, d1, d2, d3, d4, d5, d6⟩ := dispose_local hwhole hnd1 hq1' hqall hq0 v5
      rw [revOnto_app] at d2
      obtain ⟨mid, d7, d8⟩ := seg_app.1 d2
      -- the rest starts where it did
      have hmid : mid = s.peer p := by
        have := hr1
        cases r with
        | nil =>
          have e1 : mid = 0 := d8
          have e2 : s.peer p = 0 := h6
          rw [e1, e2]
        | node i k' r' => exact d8.1.trans h6.1.symm
      rw [hmid] at d7 d8
      have hids : (ids (revOnto k1 a) ++ ids r).Perm ((ids k1 ++ ids a) ++ ids r) :=
        List.Perm.append_right _ (ids_revOnto k1 a)
      have hmem : ∀ x, x ∈ ids (revOnto k1 a) ++ ids r ↔ (x ∈ ids k1 ∨ x ∈ ids a) ∨ x ∈ ids r := by
        intro x; rw [hids.mem_iff]; simp only [List.mem_append]
      have hndA : (ids (revOnto k1 a) ++ ids r).Nodup := by
        rw [hids.nodup_iff, List.nodup_append, List.nodup_append]
        refine ⟨⟨k1nd, nd1, fun x hx y hy e => hka x (k1sub x hx).1 (e ▸ hy)⟩, n4, ?_⟩
        intro x hx y hy e
        subst e
        rcases List.mem_append.1 hx with e | e
        · exact n5 x (k1sub x e).1 hy
        · exact hra x hy e
      obtain ⟨s3, f', w1, w2, w3, w4, w5, w6, w7, w8⟩ := killKids z r (revOnto k1 a) s2 q (s.peer p) (m + 1) d7 d8 hndA
        (by
          rw [hmem]
          rintro ((e | e) | e)
          · exact q3 (k1sub q e).1
          · exact q1 e
          · exact q4 e)
        (by rw [d4]; exact (List.mem_erase_of_ne q2).2 hqall) hq0 (by rw [d4]; exact v5.erase _) (by omega)
      refine ⟨s3, f', ?_, w2, ?_, ⟨?_, ?_, ?_, ?_⟩, w5, ?_, ?_, ?_⟩
      · rw [hstep, if_pos hz, d1]; exact w1
      · refine w3.trans ?_
        refine (List.Perm.append_right _ ((ids_revOnto k1 a).trans (List.Perm.append_right _ v3))).trans ?_
        simp only [ids, List.nil_append]
        rw [List.filter_cons_of_neg (by simp [hz]), List.filter_append]
        rw [List.perm_iff_count]; intro x
        simp only [List.count_append]; omega
      · intro x hx
        simp only [ids, List.mem_append, List.mem_cons, not_or] at hx
        obtain ⟨x1, x2, x3, x4, x5⟩ := hx
        have e1 := w4.others x (by
          rw [List.mem_cons, hmem]
          rintro (e | (e | e) | e)
          · exact x1 e
          · exact x4 (k1sub x e).1
          · exact x2 e
          · exact x5 e)
        have e2 := d3.others x (by
          rw [List.mem_cons, ids_app]
          simp only [ids, List.mem_append, List.mem_cons]
          rintro (e | e | e | e | e)
          · exact x1 e
          · exact x2 e
          · exact x3 e
          · exact x4 (k1sub x e).1
          · exact x5 e)
        have e3 := v4' x x3 x4
        exact ⟨e1.1.trans (e2.1.trans e3.1), e1.2.1.trans (e2.2.1.trans e3.2.1), e1.2.2.trans (e2.2.2.trans e3.2.2)⟩
      · rw [w4.parent, d3.parent, hq1.1]
      · rw [w4.peer, d3.peer, hq1.2.1]
      · rw [w4.root, d3.root, v4.root]
      · intro x
        rw [w6, d4]
        by_cases hxp : x = p
        · subst hxp
          constructor
          · intro e; exact absurd e.1 (v5.not_mem_erase)
          · intro e; exact absurd ⟨by simp [ids], hz⟩ e.2
        · rw [List.mem_erase_of_ne hxp, v6]
          simp only [ids, List.mem_append, List.mem_cons]
          constructor
          · rintro ⟨⟨e1, e2⟩, e3⟩
            refine ⟨e1, ?_⟩
            rintro ⟨e | e | e, e'⟩
            · exact hxp e
            · exact e2 ⟨e, e'⟩
            · exact e3 ⟨e, e'⟩
          · rintro ⟨e1, e2⟩
            exact ⟨⟨e1, fun e => e2 ⟨Or.inr (Or.inl e.1), e.2⟩⟩, fun e => e2 ⟨Or.inr (Or.inr e.1), e.2⟩⟩
      · rw [w7, d5, v7]
        simp only [tally, ids]
        rw [List.filter_cons_of_pos (by simp [hz]), List.filter_append]
        simp only [List.length_cons, List.length_append]
        omega
      · rw [w8, d6, v8]
    · -- it stays
      have hz' : z p = false := by simpa using hz
      obtain ⟨s3, f', w1, w2, w3, w4, w5, w6, w7, w8⟩ := killKids z r (app a (.node p k1 .nil)) s1 q (s.peer p) (m + 1)
        (seg_app.2 ⟨p, ha1, ⟨rfl, h2, hp1, v4.parent.trans h4, v2, v4.peer⟩⟩) hr1
        (by
          rw [ids_app, List.nodup_append, List.nodup_append]
          refine ⟨⟨nd1, ?_, ?_⟩, n4, ?_⟩
          · simp only [ids, List.append_nil, List.nodup_cons]; exact ⟨fun e => n1 (k1sub p e).1, k1nd⟩
          · intro x hx y hy e
            subst e
            simp only [ids, List.append_nil, List.mem_cons] at hy
            rcases hy with e | e
            · exact hpa (e ▸ hx)
            · exact hka x (k1sub x e).1 hx
          · intro x hx y hy e
            subst e
            simp only [ids, List.append_nil, List.mem_cons, List.mem_append] at hx
            rcases hx with e | e | e
            · exact hra x hy e
            · exact n2 (e ▸ hy)
            · exact n5 x (k1sub x e).1 hy)
        (by
          rw [ids_app]
          simp only [ids, List.append_nil, List.mem_cons, List.mem_append, not_or]
          exact ⟨⟨q1, q2, fun e => q3 (k1sub q e).1⟩, q4⟩)
        hqall hq0 v5 (by omega)
      refine ⟨s3, f', ?_, w2, ?_, ⟨?_, ?_, ?_, ?_⟩, w5, ?_, ?_, ?_⟩
      · rw [hstep, if_neg hz]; exact w1
      · refine w3.trans ?_
        rw [ids_app]
        simp only [ids, List.append_nil]
        rw [List.filter_cons_of_pos (by simp [hz']), List.filter_append]
        have := v3
        simp only [ids, List.nil_append] at this
        rw [List.perm_iff_count] at this ⊢; intro x
        have := this x
        simp only [List.count_append, List.count_cons] at this ⊢; omega
      · intro x hx
        simp only [ids, List.mem_append, List.mem_cons, not_or] at hx
        obtain ⟨x1, x2, x3, x4, x5⟩ := hx
        have e1 := w4.others x (by
          rw [ids_app]
          simp only [ids, List.append_nil, List.mem_append, List.mem_cons]
          rintro (e | (e | e | e) | e)
          · exact x1 e
          · exact x2 e
          · exact x3 e
          · exact x4 (k1sub x e).1
          · exact x5 e)
        have e3 := v4' x x3 x4
        exact ⟨e1.1.trans e3.1, e1.2.1.trans e3.2.1, e1.2.2.trans e3.2.2⟩
      · rw [w4.parent, hq1.1]
      · rw [w4.peer, hq1.2.1]
      · rw [w4.root, v4.root]
      · intro x
        rw [w6, v6]
        simp only [ids, List.mem_append, List.mem_cons]
        constructor
        · rintro ⟨⟨e1, e2⟩, e3⟩
          refine ⟨e1, ?_⟩
          rintro ⟨e | e | e, e'⟩
          · rw [e, hz'] at e'; cases e'
          · exact e2 ⟨e, e'⟩
          · exact e3 ⟨e, e'⟩
        · rintro ⟨e1, e2⟩
          exact ⟨⟨e1, fun e => e2 ⟨Or.inr (Or.inl e.1), e.2⟩⟩, fun e => e2 ⟨Or.inr (Or.inr e.1), e.2⟩⟩
      · rw [w7, v7]
        simp only [tally, ids]
        rw [List.filter_cons_of_neg (by simp [hz']), List.filter_append]
        simp only [List.length_append]
        omega
      · rw [w8, v8]

/-- `visitAll` with a visit that disposes of the thread and nothing else (`disposeNoRemove`). -/
theorem freeKids : ∀ (f : F) (s : St) (q p n : Nat), Seg s q p f 0 → (ids f).Nodup → s.alloc.Nodup →
    2 * (ids f).length < n →
    ∃ s', visitKids free n s p = some s' ∧ s'.alloc.Nodup ∧ (∀ x, x ∈ s'.alloc ↔ x ∈ s.alloc ∧ x ∉ ids f) ∧
      s'.threadCount = s.threadCount - (ids f).length ∧ s'.parent = s.parent ∧ s'.peer = s.peer ∧ s'.child = s.child
  | .nil, s, q, p, n, h, _, hna, hn => by
    cases n with
    | zero => simp at hn
    | succ n =>
      rw [show p = 0 from h]
      exact ⟨s, by simp [visitKids], hna, by simp [ids], by simp [ids], rfl, rfl, rfl⟩
  | .node c k r, s, q, p, n, ⟨h1, h2, h3, h4, h5, h6⟩, hnd, hna, hn => by
    subst h1
    simp only [ids, List.length_cons, List.length_append] at hn
    obtain ⟨n1, n2, n3, n4, n5⟩ := nodup_node hnd
    obtain ⟨m, rfl⟩ : ∃ m, n = m + 2 := ⟨n - 2, by omega⟩
    obtain ⟨s1, v1, v2, v3, v4, v5, v6, v7⟩ := freeKids k s p (s.child p) m h5 n3 hna (by omega)
    have hp1 : p ∈ s1.alloc := (v3 p).2 ⟨h3, n1⟩
    let s2 : St := { s1 with alloc := s1.alloc.erase p, threadCount := s1.threadCount - 1 }
    have hr : Seg s2 q (s.peer p) r 0 := by
      refine seg_frame h6 (fun x hx => ⟨congrFun v5 x, congrFun v6 x, congrFun v7 x, ?_⟩)
      have hxp : x ≠ p := fun e => n2 (e ▸ hx)
      exact (List.mem_erase_of_ne hxp).2 ((v3 x).2 ⟨(seg_alloc h6 x hx).1, fun e => n5 x e hx⟩)
    obtain ⟨s3, w1, w2, w3, w4, w5, w6, w7⟩ := freeKids r s2 q (s.peer p) (m + 1) hr n4 (v2.erase _) (by omega)
    refine ⟨s3, ?_, w2, ?_, ?_, w5.trans v5, w6.trans v6, w7.trans v7⟩
    · show (if p = 0 then some s else (rd s s.peer p).bind fun next =>
        (visitAll free (m + 1) s p).bind fun s2 => visitKids free (m + 1) s2 next) = _
      rw [if_neg h2]
      simp only [rd, if_pos h3, Option.bind_some]
      have : visitAll free (m + 1) s p = some s2 := by
        show ((rd s s.child p).bind fun c => (visitKids free m s c).bind fun s => free s p) = _
        simp only [rd, if_pos h3, Option.bind_some, v1]
        exact if_pos hp1
      rw [this]
      exact w1
    · intro x
      rw [w3]
      show x ∈ s1.alloc.erase p ∧ _ ↔ _
      by_cases hxp : x = p
      · subst hxp
        constructor
        · intro e; exact absurd e.1 v2.not_mem_erase
        · intro e; exact absurd (by simp [ids]) e.2
      · rw [List.mem_erase_of_ne hxp, v3]
        simp [ids, hxp, and_assoc]
    · rw [w4]
      show s1.threadCount - 1 - _ = _
      rw [v4]
      simp only [ids, List.length_cons, List.length_append]
      omega

/-- `visitAll` with a visit that does nothing to the tree: each thread once. -/
theorem logKids : ∀ (f : F) (s : St) (q p n : Nat), Seg s q p f 0 → 2 * (ids f).length < n →
    ∃ l, visitKids (fun s o => some { s with log := o :: s.log }) n s p = some { s with log := l ++ s.log } ∧
      l.Perm (ids f)
  | .nil, s, q, p, n, h, hn => by
    cases n with
    | zero => simp at hn
    | succ n =>
      rw [show p = 0 from h]
      exact ⟨[], by simp [visitKids], by simp [ids]⟩
  | .node c k r, s, q, p, n, ⟨h1, h2, h3, h4, h5, h6⟩, hn => by
    subst h1
    simp only [ids, List.length_cons, List.length_append] at hn
    obtain ⟨m, rfl⟩ : ∃ m, n = m + 2 := ⟨n - 2, by omega⟩
    obtain ⟨l1, v1, v2⟩ := logKids k s p (s.child p) m h5 (by omega)
    obtain ⟨l2, w1, w2⟩ := logKids r { s with log := p :: (l1 ++ s.log) } q (s.peer p) (m + 1)
      (seg_frame h6 (fun x hx => ⟨rfl, rfl, rfl, (seg_alloc h6 x hx).1⟩)) (by omega)
    refine ⟨l2 ++ p :: l1, ?_, ?_⟩
    · show (if p = 0 then some s else (rd s s.peer p).bind fun next =>
        (visitAll (fun s o => some { s with log := o :: s.log }) (m + 1) s p).bind fun s2 =>
          visitKids (fun s o => some { s with log := o :: s.log }) (m + 1) s2 next) = _
      rw [if_neg h2]
      simp only [rd, if_pos h3, Option.bind_some]
      have : visitAll (fun s o => some { s with log := o :: s.log }) (m + 1) s p =
          some { s with log := p :: (l1 ++ s.log) } := by
        show ((rd s s.child p).bind fun c =>
          (visitKids (fun s o => some { s with log := o :: s.log }) m s c).bind fun s =>
            some { s with log := p :: s.log }) = _
        simp only [rd, if_pos h3, Option.bind_some, v1]
      rw [this]
      simp only [Option.bind_some, w1, List.append_assoc, List.cons_append]
    · rw [List.perm_iff_count] at *
      intro x
      have := v2 x
      have := w2 x
      simp only [ids, List.count_append, List.count_cons] at *
      omega

/-! ### A thread somewhere in the tree -/

/-- Change the children of a thread of the forest. -/
theorem focus {s : St} {q : Nat} : ∀ {f : F} {par p : Nat}, Seg s par p f 0 → (ids f).Nodup → q ∈ ids f →
    ∃ g, Seg s q (s.child q) g 0 ∧ (∀ x ∈ ids g, x ∈ ids f) ∧ q ∉ ids g ∧ (ids g).Nodup ∧
      ∀ (s' : St) (g' : F), Keeps s s' q (ids g) → (∀ x ∈ ids f, x ∉ ids g → x ∈ s'.alloc) →
        Seg s' q (s'.child q) g' 0 →
        ∃ f', Seg s' par p f' 0 ∧ (ids f' ++ ids g).Perm (ids f ++ ids g')
  | .nil, par, p, _, _, hq => by simp [ids] at hq
  | .node i k r, par, p, ⟨h1, h2, h3, h4, h5, h6⟩, hnd, hq => by
    subst h1
    obtain ⟨n1, n2, n3, n4, n5⟩ := nodup_node hnd
    simp only [ids, List.mem_cons, List.mem_append] at hq
    rcases hq with e | e | e
    · subst e
      refine ⟨k, h5, fun x hx => by simp [ids, hx], n1, n3, ?_⟩
      intro s' g' hk ha hg
      refine ⟨.node q g' r, ⟨rfl, h2, ha q (by simp [ids]) n1, hk.parent.trans h4, hg, ?_⟩, ?_⟩
      · rw [hk.peer]
        refine seg_frame h6 (fun x hx => ?_)
        have hxq : x ≠ q := fun e => n2 (e ▸ hx)
        have hxk : x ∉ ids k := fun e => n5 x e hx
        have := hk.others x (by simp [hxq, hxk])
        exact ⟨this.1, this.2.1, this.2.2, ha x (by simp [ids, hx]) hxk⟩
      · rw [List.perm_iff_count]; intro x
        simp only [ids, List.count_append, List.count_cons]; omega
    · obtain ⟨g, a1, a2, a3, a4, a5⟩ := focus h5 n3 e
      refine ⟨g, a1, fun x hx => by simp [ids, a2 x hx], a3, a4, ?_⟩
      intro s' g' hk ha hg
      obtain ⟨k', b1, b2⟩ := a5 s' g' hk (fun x hx hx' => ha x (by simp [ids, hx]) hx') hg
      have hiq : p ≠ q := fun e' => n1 (e' ▸ e)
      have hig : p ∉ ids g := fun e' => n1 (a2 _ e')
      have ei := hk.others p (by simp [hiq, hig])
      refine ⟨.node p k' r, ⟨rfl, h2, ha p (by simp [ids]) hig, ei.1.trans h4, ?_, ?_⟩, ?_⟩
      · rw [ei.2.2]; exact b1
      · rw [ei.2.1]
        refine seg_frame h6 (fun x hx => ?_)
        have hxq : x ≠ q := fun e' => n5 q e (e' ▸ hx)
        have hxg : x ∉ ids g := fun e' => n5 x (a2 x e') hx
        have := hk.others x (by simp [hxq, hxg])
        exact ⟨this.1, this.2.1, this.2.2, ha x (by simp [ids, hx]) hxg⟩
      · rw [List.perm_iff_count] at *; intro x
        have := b2 x
        simp only [ids, List.count_append, List.count_cons] at *; omega
    · obtain ⟨g, a1, a2, a3, a4, a5⟩ := focus h6 n4 e
      refine ⟨g, a1, fun x hx => by simp [ids, a2 x hx], a3, a4, ?_⟩
      intro s' g' hk ha hg
      obtain ⟨r', b1, b2⟩ := a5 s' g' hk (fun x hx hx' => ha x (by simp [ids, hx]) hx') hg
      have hiq : p ≠ q := fun e' => n2 (e' ▸ e)
      have hig : p ∉ ids g := fun e' => n2 (a2 _ e')
      have ei := hk.others p (by simp [hiq, hig])
      refine ⟨.node p k r', ⟨rfl, h2, ha p (by simp [ids]) hig, ei.1.trans h4, ?_, ?_⟩, ?_⟩
      · rw [ei.2.2]
        refine seg_frame h5 (fun x hx => ?_)
        have hxq : x ≠ q := fun e' => n5 x hx (e' ▸ e)
        have hxg : x ∉ ids g := fun e' => n5 x hx (a2 x e')
        have := hk.others x (by simp [hxq, hxg])
        exact ⟨this.1, this.2.1, this.2.2, ha x (by simp [ids, hx]) hxg⟩
      · rw [ei.2.1]; exact b1
      · rw [List.perm_iff_count] at *; intro x
        have := b2 x
        simp only [ids, List.count_append, List.count_cons] at *; omega

/-- A thread of the forest is at the top level or a child of its parent. -/
theorem locate {s : St} {o : Nat} : ∀ {f : F} {par p l : Nat}, Seg s par p f l → (ids f).Nodup → o ∈ ids f →
    (∃ a k b, f = app a (.node o k b) ∧ s.parent o = par) ∨
    ∃ q ∈ ids f, s.parent o = q ∧ ∀ g, Seg s q (s.child q) g 0 → ∃ a k b, g = app a (.node o k b)
  | .nil, par, p, _, _, _, ho => by simp [ids] at ho
  | .node i k r, par, p, l, ⟨h1, h2, h3, h4, h5, h6⟩, hnd, ho => by
    obtain ⟨n1, n2, n3, n4, n5⟩ := nodup_node hnd
    simp only [ids, List.mem_cons, List.mem_append] at ho
    rcases ho with e | e | e
    · subst e; exact Or.inl ⟨.nil, k, r, rfl, h4⟩
    · right
      rcases locate h5 n3 e with ⟨a, k', b, e1, e2⟩ | ⟨q, e1, e2, e3⟩
      · refine ⟨i, by simp [ids], e2, ?_⟩
        intro g hg
        have : ∀ (f g : F) (par p : Nat), Seg s par p f 0 → Seg s par p g 0 → f = g := by
          intro f
          induction f with
          | nil =>
            intro g par p hf hg
            cases g with
            | nil => rfl
            | node j _ _ => exact absurd ((hg.1.symm.trans hf)) hg.2.1
          | node i' k' r' ih1 ih2 =>
            intro g par p hf hg
            cases g with
            | nil => exact absurd (hf.1.symm.trans hg) hf.2.1
            | node j k2 r2 =>
              have hij : j = i' := hg.1.symm.trans hf.1
              subst hij
              rw [ih1 k2 _ _ hf.2.2.2.2.1 hg.2.2.2.2.1, ih2 r2 _ _ hf.2.2.2.2.2 hg.2.2.2.2.2]
        exact ⟨a, k', b, (this _ _ _ _ h5 hg) ▸ e1⟩
      · exact ⟨q, by simp [ids, e1], e2, e3⟩
    · rcases locate h6 n4 e with ⟨a, k', b, e1, e2⟩ | ⟨q, e1, e2, e3⟩
      · exact Or.inl ⟨.node i k a, k', b, by rw [e1]; rfl, e2⟩
      · exact Or.inr ⟨q, by simp [ids, e1], e2, e3⟩

end Avian.Threads
