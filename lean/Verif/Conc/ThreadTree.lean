import Verif.Conc.Threads

/-
Lemmas about `Conc/Threads`: forests and the links that represent them.
-/
namespace Avian.Threads

theorem upd_ne {f : Nat → Nat} {i v j : Nat} (h : j ≠ i) : upd f i v j = f j := if_neg h
theorem upd_eq {f : Nat → Nat} {i v : Nat} : upd f i v i = v := if_pos rfl

/-- A list of trees: the first one has root `id` and subtrees `kids`. -/
inductive F where
  | nil
  | node (id : Nat) (kids rest : F)

def ids : F → List Nat
  | .nil => []
  | .node i k r => i :: (ids k ++ ids r)

def app : F → F → F
  | .nil, g => g
  | .node i k r, g => .node i k (app r g)

/-- The trees of the first list, last one first, before those of the second. -/
def revOnto : F → F → F
  | .nil, g => g
  | .node i k r, g => revOnto r (.node i k g)

def lastTop : F → Nat → Nat
  | .nil, d => d
  | .node i _ r, _ => lastTop r i

def width : F → Nat
  | .nil => 0
  | .node _ _ r => width r + 1

/-- The threads linked from `p` up to, not including, `l` are the forest, all with parent `par`. -/
def Seg (s : St) : Nat → Nat → F → Nat → Prop
  | _, p, .nil, l => p = l
  | par, p, .node i k r, l => p = i ∧ i ≠ 0 ∧ i ∈ s.alloc ∧ s.parent i = par ∧ Seg s i (s.child i) k 0 ∧
      Seg s par (s.peer i) r l

theorem ids_app : ∀ (a b : F), ids (app a b) = ids a ++ ids b
  | .nil, _ => rfl
  | .node i k r, b => by simp [app, ids, ids_app r b]

theorem ids_revOnto : ∀ (a b : F), (ids (revOnto a b)).Perm (ids a ++ ids b)
  | .nil, _ => .refl _
  | .node i k r, b => by
    refine (ids_revOnto r (.node i k b)).trans ?_
    rw [List.perm_iff_count]
    intro x
    simp only [ids, List.count_append, List.count_cons]
    omega

theorem revOnto_app : ∀ (a b c : F), revOnto a (app b c) = app (revOnto a b) c
  | .nil, _, _ => rfl
  | .node i k r, b, c => by
    show revOnto r (.node i k (app b c)) = _
    exact revOnto_app r (.node i k b) c

theorem app_assoc : ∀ (a b c : F), app (app a b) c = app a (app b c)
  | .nil, _, _ => rfl
  | .node i k r, b, c => by simp [app, app_assoc r b c]

theorem app_nil : ∀ (a : F), app a .nil = a
  | .nil => rfl
  | .node i k r => by simp [app, app_nil r]

theorem seg_app {s : St} : ∀ {a b : F} {par p l : Nat},
    Seg s par p (app a b) l ↔ ∃ m, Seg s par p a m ∧ Seg s par m b l
  | .nil, b, par, p, l => by
    constructor
    · intro h; exact ⟨p, rfl, h⟩
    · rintro ⟨m, h1, h2⟩; rw [show p = m from h1]; exact h2
  | .node i k r, b, par, p, l => by
    constructor
    · rintro ⟨h1, h2, h3, h4, h5, h6⟩
      obtain ⟨m, h7, h8⟩ := seg_app.1 h6
      exact ⟨m, ⟨h1, h2, h3, h4, h5, h7⟩, h8⟩
    · rintro ⟨m, ⟨h1, h2, h3, h4, h5, h7⟩, h8⟩
      exact ⟨h1, h2, h3, h4, h5, seg_app.2 ⟨m, h7, h8⟩⟩

/-- The forest depends on its threads only. -/
theorem seg_frame {s s' : St} : ∀ {f : F} {par p l : Nat}, Seg s par p f l →
    (∀ x ∈ ids f, s'.parent x = s.parent x ∧ s'.peer x = s.peer x ∧ s'.child x = s.child x ∧ x ∈ s'.alloc) →
    Seg s' par p f l
  | .nil, _, _, _, h, _ => h
  | .node i k r, par, p, l, ⟨h1, h2, h3, h4, h5, h6⟩, hx => by
    obtain ⟨e1, e2, e3, e4⟩ := hx i (by simp [ids])
    refine ⟨h1, h2, e4, e1.trans h4, ?_, ?_⟩
    · rw [e3]; exact seg_frame h5 (fun x hx' => hx x (by simp [ids, hx']))
    · rw [e2]; exact seg_frame h6 (fun x hx' => hx x (by simp [ids, hx']))

theorem seg_alloc {s : St} : ∀ {f : F} {par p l : Nat}, Seg s par p f l → ∀ x ∈ ids f, x ∈ s.alloc ∧ x ≠ 0
  | .nil, _, _, _, _, x, hx => by simp [ids] at hx
  | .node i k r, par, p, l, ⟨_, h2, h3, _, h5, h6⟩, x, hx => by
    simp only [ids, List.mem_cons, List.mem_append] at hx
    rcases hx with e | e | e
    · subst e; exact ⟨h3, h2⟩
    · exact seg_alloc h5 x e
    · exact seg_alloc h6 x e

theorem width_le : ∀ (f : F), width f ≤ (ids f).length
  | .nil => by simp [width]
  | .node i k r => by
    have := width_le r
    simp only [width, ids, List.length_cons, List.length_append]
    omega

theorem lastTop_mem : ∀ (f : F) (d : Nat), lastTop f d = d ∨ lastTop f d ∈ ids f
  | .nil, d => Or.inl rfl
  | .node i k r, d => by
    rcases lastTop_mem r i with h | h
    · right; simp [lastTop, h, ids]
    · right; simp only [lastTop, ids, List.mem_cons, List.mem_append]; exact Or.inr (Or.inr h)

theorem nodup_node {i : Nat} {k r : F} (h : (ids (.node i k r)).Nodup) :
    i ∉ ids k ∧ i ∉ ids r ∧ (ids k).Nodup ∧ (ids r).Nodup ∧ ∀ x ∈ ids k, x ∉ ids r := by
  simp only [ids, List.nodup_cons, List.mem_append, not_or, List.nodup_append] at h
  exact ⟨h.1.1, h.1.2, h.2.1, h.2.2.1, fun x hx hx' => h.2.2.2 x hx x hx' rfl⟩

/-- Redirect the link that leaves the last tree. -/
theorem seg_relink {s : St} : ∀ {a : F} {par p l d v : Nat}, Seg s par p a l → (ids a).Nodup → a ≠ .nil →
    Seg { s with peer := upd s.peer (lastTop a d) v } par p a v
  | .nil, _, _, _, _, _, _, _, hn => absurd rfl hn
  | .node i k .nil, par, p, l, d, v, ⟨h1, h2, h3, h4, h5, h6⟩, hnd, _ => by
    obtain ⟨n1, _, _, _, _⟩ := nodup_node hnd
    refine ⟨h1, h2, h3, h4, ?_, ?_⟩
    · refine seg_frame h5 (fun x hx => ⟨rfl, ?_, rfl, (seg_alloc h5 x hx).1⟩)
      show upd s.peer i v x = _
      exact upd_ne (fun e => n1 (e ▸ hx))
    · show upd s.peer i v i = v
      exact if_pos rfl
  | .node i k (.node i2 k2 r2), par, p, l, d, v, ⟨h1, h2, h3, h4, h5, h6⟩, hnd, _ => by
    obtain ⟨n1, n2, _, n4, n5⟩ := nodup_node hnd
    have hm : lastTop (.node i2 k2 r2) i ∈ ids (.node i2 k2 r2) := by
      rcases lastTop_mem r2 i2 with h | h
      · simp only [lastTop, ids, h, List.mem_cons, true_or]
      · simp only [lastTop, ids, List.mem_cons, List.mem_append]; exact Or.inr (Or.inr h)
    have ih := seg_relink (d := i) (v := v) h6 n4 (by simp)
    refine ⟨h1, h2, h3, h4, ?_, ?_⟩
    · refine seg_frame h5 (fun x hx => ⟨rfl, ?_, rfl, (seg_alloc h5 x hx).1⟩)
      show upd s.peer (lastTop (.node i2 k2 r2) i) v x = _
      exact upd_ne (fun e => n5 x hx (e ▸ hm))
    · show Seg _ par (upd s.peer (lastTop (.node i2 k2 r2) i) v i) _ v
      rw [show upd s.peer (lastTop (.node i2 k2 r2) i) v i = s.peer i from upd_ne (fun e => n2 (by rw [e]; exact hm))]
      exact ih

/-! ### Taking a thread off its parent's list -/

theorem unlink_later {o q : Nat} : ∀ {a : F} {s : St} {n prev p : Nat}, width a < n → Seg s q p a o → o ∉ ids a →
    o ≠ 0 → o ∈ s.alloc → q ∈ s.alloc → s.child q ≠ o → lastTop a prev ∈ s.alloc →
    unlink o q n prev p s = some { s with peer := upd s.peer (lastTop a prev) (s.peer o) }
  | .nil, s, n, prev, p, hn, hs, _, ho, hoa, hqa, hc, hl => by
    cases n with
    | zero => simp at hn
    | succ n =>
      rw [show p = o from hs]
      simp only [unlink, rd, if_neg ho, if_pos hoa, if_pos hqa, if_true, Option.bind_eq_bind, Option.bind_some]
      rw [if_neg (fun e => hc e.symm)]
      exact if_pos hl
  | .node i k r, s, n, prev, p, hn, ⟨h1, h2, h3, h4, h5, h6⟩, hni, ho, hoa, hqa, hc, hl => by
    cases n with
    | zero => simp at hn
    | succ n =>
      subst h1
      have hpo : p ≠ o := fun e => hni (by simp [ids, e])
      simp only [unlink, rd, if_neg h2, if_neg hpo, if_pos h3, Option.bind_eq_bind, Option.bind_some]
      exact unlink_later (by simp only [width] at hn; omega) h6 (fun e => hni (by simp [ids, e])) ho hoa hqa hc hl

/-- `unlink` on a whole list. -/
theorem unlink_spec {s : St} {o q n : Nat} {a k b : F} (hs : Seg s q (s.child q) (app a (.node o k b)) 0)
    (hnd : (ids (app a (.node o k b))).Nodup) (hq : q ∉ ids (app a (.node o k b))) (hqa : q ∈ s.alloc)
    (hn : width a < n) :
    ∃ s', unlink o q n 0 (s.child q) s = some s' ∧ Seg s' q (s'.child q) (app a b) 0 ∧
      Seg s' o (s'.child o) k 0 ∧
      (∀ x, x ∉ q :: ids a → s'.parent x = s.parent x ∧ s'.peer x = s.peer x ∧ s'.child x = s.child x) ∧
      s'.parent = s.parent ∧ (∀ x, x ≠ q → s'.child x = s.child x) ∧ s'.peer q = s.peer q ∧
      s'.root = s.root ∧ s'.alloc = s.alloc ∧ s'.threadCount = s.threadCount ∧ s'.log = s.log := by
  obtain ⟨m, h1, h2, h3, h4, h5, h6, h7⟩ := seg_app.1 hs
  subst h2
  rw [ids_app] at hnd hq
  obtain ⟨nd1, nd2, nd3⟩ := List.nodup_append.1 hnd
  obtain ⟨n1, n2, n3, n4, n5⟩ := nodup_node nd2
  have hqm : q ≠ m := fun e => hq (by rw [e]; simp [ids])
  have hma : m ∉ ids a := fun e => nd3 m e m (by simp [ids]) rfl
  have hqk : q ∉ ids k := fun e => hq (by simp [ids, e])
  have hqb : q ∉ ids b := fun e => hq (by simp [ids, e])
  cases ha : a with
  | nil =>
    subst ha
    have h1' : s.child q = m := h1
    cases n with
    | zero => simp at hn
    | succ n =>
      refine ⟨{ s with child := upd s.child q (s.peer m) }, ?_, ?_, ?_, ?_, rfl, ?_, rfl, rfl, rfl, rfl, rfl⟩
      · rw [h1']
        simp only [unlink, rd, if_neg h3, if_pos h4, if_pos hqa, if_true, h1', Option.bind_eq_bind, Option.bind_some]
        exact if_pos hqa
      · show Seg _ q (upd s.child q (s.peer m) q) b 0
        rw [show upd s.child q (s.peer m) q = s.peer m from if_pos rfl]
        exact seg_frame h7 (fun x hx => ⟨rfl, rfl, upd_ne (fun e => hqb (e ▸ hx)), (seg_alloc h7 x hx).1⟩)
      · show Seg _ m (upd s.child q (s.peer m) m) k 0
        rw [show upd s.child q (s.peer m) m = s.child m from upd_ne (fun e => hqm e.symm)]
        exact seg_frame h6 (fun x hx => ⟨rfl, rfl, upd_ne (fun e => hqk (e ▸ hx)), (seg_alloc h6 x hx).1⟩)
      · intro x hx
        exact ⟨rfl, rfl, upd_ne (fun e => hx (by simp [e]))⟩
      · intro x hx; exact if_neg hx
  | node i ka ra =>
    have hne : a ≠ .nil := by rw [ha]; simp
    rw [← ha]
    have hlast : lastTop a 0 ∈ ids a := by
      rcases lastTop_mem ra i with h | h
      · rw [ha]; simp [lastTop, ids, h]
      · rw [ha]; simp only [lastTop, ids, List.mem_cons, List.mem_append]; exact Or.inr (Or.inr h)
    have hcm : s.child q ≠ m := by
      rw [ha] at h1 hma
      intro e
      rw [h1.1] at e
      exact hma (by simp [ids, e])
    refine ⟨{ s with peer := upd s.peer (lastTop a 0) (s.peer m) }, ?_, ?_, ?_, ?_, rfl, fun _ _ => rfl, ?_, rfl, rfl, rfl, rfl⟩
    · exact unlink_later hn h1 hma h3 h4 hqa hcm (seg_alloc h1 _ hlast).1
    · refine seg_app.2 ⟨s.peer m, ?_, ?_⟩
      · exact seg_relink (d := 0) (v := s.peer m) h1 nd1 hne
      · exact seg_frame h7 (fun x hx => ⟨rfl,
          upd_ne (fun e => nd3 _ hlast x (by simp [ids, hx]) e.symm), rfl, (seg_alloc h7 x hx).1⟩)
    · exact seg_frame h6 (fun x hx => ⟨rfl,
          upd_ne (fun e => nd3 _ hlast x (by simp [ids, hx]) e.symm), rfl, (seg_alloc h6 x hx).1⟩)
    · intro x hx
      exact ⟨rfl, upd_ne (fun e => hx (by rw [e]; exact List.mem_cons_of_mem _ hlast)), rfl⟩
    · exact upd_ne (fun e => hq (by rw [e]; exact List.mem_append_left _ hlast))

/-! ### Handing the children on -/

theorem adopt_spec {q : Nat} : ∀ {k : F} {s : St} {n o p : Nat} {x : F}, width k < n → Seg s o p k 0 →
    Seg s q (s.child q) x 0 → (ids k).Nodup → q ∉ ids k → q ∉ ids x → (∀ y ∈ ids k, y ∉ ids x) → q ∈ s.alloc →
    ∃ s', adopt q n p s = some s' ∧ Seg s' q (s'.child q) (revOnto k x) 0 ∧
      (∀ y, y ∉ q :: ids k → s'.parent y = s.parent y ∧ s'.peer y = s.peer y ∧ s'.child y = s.child y) ∧
      s'.parent q = s.parent q ∧ s'.peer q = s.peer q ∧
      s'.root = s.root ∧ s'.alloc = s.alloc ∧ s'.threadCount = s.threadCount ∧ s'.log = s.log
  | .nil, s, n, o, p, x, hn, hk, hx, _, _, _, _, _ => by
    cases n with
    | zero => simp at hn
    | succ n =>
      rw [show p = 0 from hk]
      exact ⟨s, by simp [adopt], hx, fun _ _ => ⟨rfl, rfl, rfl⟩, rfl, rfl, rfl, rfl, rfl, rfl⟩
  | .node i kk r, s, n, o, p, x, hn, ⟨h1, h2, h3, h4, h5, h6⟩, hx, hnd, hqk, hqx, hdis, hqa => by
    cases n with
    | zero => simp at hn
    | succ n =>
      subst h1
      obtain ⟨n1, n2, n3, n4, n5⟩ := nodup_node hnd
      have hqp : q ≠ p := fun e => hqk (by rw [e]; simp [ids])
      have hpx : p ∉ ids x := hdis p (by simp [ids])
      let s1 : St := { s with peer := upd s.peer p (s.child q), child := upd s.child q p, parent := upd s.parent p q }
      have f : ∀ y, y ≠ p → y ≠ q → s1.parent y = s.parent y ∧ s1.peer y = s.peer y ∧ s1.child y = s.child y := by
        intro y e1 e2
        exact ⟨if_neg e1, if_neg e1, if_neg e2⟩
      have step : adopt q (n + 1) p s = adopt q n (s.peer p) s1 := by
        simp only [adopt, rd, setPeer, setChild, setParent, if_neg h2, if_pos h3, if_pos hqa, Option.bind_eq_bind, Option.bind_some]
        rfl
      have hx1 : Seg s1 q (s1.child q) (.node p kk x) 0 := by
        refine ⟨if_pos rfl, h2, h3, if_pos rfl, ?_, ?_⟩
        · show Seg s1 p (upd s.child q p p) kk 0
          rw [show upd s.child q p p = s.child p from upd_ne (fun e => hqp e.symm)]
          refine seg_frame h5 (fun y hy => ?_)
          have := f y (fun e => n1 (e ▸ hy)) (fun e => hqk (by rw [← e]; simp [ids, hy]))
          exact ⟨this.1, this.2.1, this.2.2, (seg_alloc h5 y hy).1⟩
        · show Seg s1 q (upd s.peer p (s.child q) p) x 0
          rw [show upd s.peer p (s.child q) p = s.child q from if_pos rfl]
          refine seg_frame hx (fun y hy => ?_)
          have := f y (fun e => hpx (e ▸ hy)) (fun e => hqx (e ▸ hy))
          exact ⟨this.1, this.2.1, this.2.2, (seg_alloc hx y hy).1⟩
      have hr1 : Seg s1 o (s.peer p) r 0 := by
        refine seg_frame h6 (fun y hy => ?_)
        have := f y (fun e => n2 (e ▸ hy)) (fun e => hqk (by rw [← e]; simp [ids, hy]))
        exact ⟨this.1, this.2.1, this.2.2, (seg_alloc h6 y hy).1⟩
      obtain ⟨s', a1, a2, a3, a4, a5, a6, a7, a8, a9⟩ := adopt_spec (k := r) (s := s1) (n := n) (x := .node p kk x)
        (by simp only [width] at hn; omega) hr1 hx1 n4 (fun e => hqk (by simp [ids, e]))
        (by
          simp only [ids, List.mem_cons, List.mem_append, not_or]
          exact ⟨hqp, fun e => hqk (by simp [ids, e]), hqx⟩)
        (by
          intro y hy
          simp only [ids, List.mem_cons, List.mem_append, not_or]
          exact ⟨fun e => n2 (e ▸ hy), fun e => n5 y e hy, hdis y (by simp [ids, hy])⟩)
        hqa
      refine ⟨s', step.trans a1, a2, ?_, ?_, ?_, a6, a7, a8, a9⟩
      · intro y hy
        simp only [ids, List.mem_cons, List.mem_append, not_or] at hy
        have := a3 y (by simp only [List.mem_cons, not_or]; exact ⟨hy.1, hy.2.2.2⟩)
        have g := f y hy.2.1 hy.1
        exact ⟨this.1.trans g.1, this.2.1.trans g.2.1, this.2.2.trans g.2.2⟩
      · exact a4.trans (if_neg hqp)
      · exact a5.trans (if_neg hqp)

end Avian.Threads
