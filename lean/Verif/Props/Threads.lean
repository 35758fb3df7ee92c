import Verif.Conc.ThreadOps

/-
C40: ending threads keeps every other thread registered.

`Reach` says which threads can be found by following the links from the root; `Wf` is the invariant.
`run_partial` is about every sequence of starts, exits and collections in which the root thread does
not end; what happens when it does, or when a start fails late, is shown by the last theorems.
-/
namespace Avian.Threads

/-- The threads found by following links from the root. -/
inductive Reach (s : St) : Nat → Prop
  | root : Reach s s.root
  | child {x : Nat} : Reach s x → s.child x ≠ 0 → Reach s (s.child x)
  | peer {x : Nat} : Reach s x → s.peer x ≠ 0 → Reach s (s.peer x)

/-- The links form a tree of exactly the allocated threads, and the counter counts them. -/
structure Wf (s : St) : Prop where
  root0 : s.root ≠ 0
  parent0 : s.parent s.root = 0
  peer0 : s.peer s.root = 0
  nodup : s.alloc.Nodup
  count : s.threadCount = s.alloc.length
  tree : ∃ f, Seg s s.root (s.child s.root) f 0 ∧ s.alloc.Perm (s.root :: ids f)

theorem seg_reach {s : St} : ∀ {f : F} {par p : Nat}, Seg s par p f 0 → (p ≠ 0 → Reach s p) → ∀ x ∈ ids f, Reach s x
  | .nil, _, _, _, _, x, hx => by simp [ids] at hx
  | .node i k r, par, p, ⟨h1, h2, h3, h4, h5, h6⟩, hp, x, hx => by
    subst h1
    have hi := hp h2
    simp only [ids, List.mem_cons, List.mem_append] at hx
    rcases hx with e | e | e
    · exact e ▸ hi
    · exact seg_reach h5 (fun hc => .child hi hc) x e
    · exact seg_reach h6 (fun hc => .peer hi hc) x e

theorem seg_closed {s : St} : ∀ {f : F} {par p : Nat}, Seg s par p f 0 → (p ≠ 0 → p ∈ ids f) ∧
    ∀ x ∈ ids f, (s.child x ≠ 0 → s.child x ∈ ids f) ∧ (s.peer x ≠ 0 → s.peer x ∈ ids f)
  | .nil, _, p, h => ⟨fun e => absurd h e, fun x hx => by simp [ids] at hx⟩
  | .node i k r, par, p, ⟨h1, h2, h3, h4, h5, h6⟩ => by
    subst h1
    obtain ⟨k1, k2⟩ := seg_closed h5
    obtain ⟨r1, r2⟩ := seg_closed h6
    refine ⟨fun _ => by simp [ids], fun x hx => ?_⟩
    simp only [ids, List.mem_cons, List.mem_append] at hx ⊢
    rcases hx with e | e | e
    · subst e; exact ⟨fun h => .inr (.inl (k1 h)), fun h => .inr (.inr (r1 h))⟩
    · exact ⟨fun h => .inr (.inl ((k2 x e).1 h)), fun h => .inr (.inl ((k2 x e).2 h))⟩
    · exact ⟨fun h => .inr (.inr ((r2 x e).1 h)), fun h => .inr (.inr ((r2 x e).2 h))⟩

/-- In such a state the threads found from the root are the allocated ones. -/
theorem reach_iff {s : St} (h : Wf s) (x : Nat) : Reach s x ↔ x ∈ s.alloc := by
  obtain ⟨f, hf, hp⟩ := h.tree
  rw [hp.mem_iff, List.mem_cons]
  obtain ⟨c1, c2⟩ := seg_closed hf
  constructor
  · intro hr
    induction hr with
    | root => exact .inl rfl
    | child _ hc ih =>
      rcases ih with e | e
      · subst e; exact .inr (c1 hc)
      · exact .inr ((c2 _ e).1 hc)
    | peer _ hc ih =>
      rcases ih with e | e
      · subst e; exact absurd h.peer0 hc
      · exact .inr ((c2 _ e).2 hc)
  · rintro (e | e)
    · exact e ▸ .root
    · exact seg_reach hf (fun hc => .child .root hc) x e

theorem wf_start {o : Nat} (ho : o ≠ 0) : Wf (start o) :=
  ⟨ho, rfl, rfl, by simp [start], by simp [start], .nil, rfl, by simp [start, ids]⟩

/-- Every change that is local to the children of one thread keeps the tree. -/
theorem wf_local {s s' : St} {q : Nat} (h : Wf s) (hq : q ∈ s.alloc) :
    ∃ g, Seg s q (s.child q) g 0 ∧ q ∉ ids g ∧ (ids g).Nodup ∧ s.root ∉ ids g ∧
      ∀ (g' : F), Keeps s s' q (ids g) → s'.alloc.Nodup → s'.threadCount = s'.alloc.length →
        (s'.alloc ++ ids g).Perm (s.alloc ++ ids g') → (∀ x ∈ s.alloc, x ∉ ids g → x ∈ s'.alloc) →
        Seg s' q (s'.child q) g' 0 → Wf s' := by
  obtain ⟨f, hf, hp⟩ := h.tree
  have hnd : (s.root :: ids f).Nodup := hp.nodup_iff.1 h.nodup
  obtain ⟨hr, hfn⟩ := List.nodup_cons.1 hnd
  by_cases hqr : q = s.root
  · subst hqr
    refine ⟨f, hf, hr, hfn, hr, ?_⟩
    intro g' hk hn hc ha hin hg
    refine ⟨by rw [hk.root]; exact h.root0, by rw [hk.root, hk.parent]; exact h.parent0,
      by rw [hk.root, hk.peer]; exact h.peer0, hn, hc, g', by rw [hk.root]; exact hg, ?_⟩
    rw [hk.root]
    rw [List.perm_iff_count] at *
    intro x
    have h1 := ha x
    have h2 := hp x
    simp only [List.count_append, List.count_cons] at *
    omega
  · have hqf : q ∈ ids f := by
      have := hp.mem_iff.1 hq
      simp only [List.mem_cons] at this
      exact this.resolve_left hqr
    obtain ⟨g, a1, a2, a3, a4, a5⟩ := focus hf hfn hqf
    have hrg : s.root ∉ ids g := fun e => hr (a2 _ e)
    refine ⟨g, a1, a3, a4, hrg, ?_⟩
    intro g' hk hn hc ha hin hg
    obtain ⟨f', b1, b2⟩ := a5 s' g' hk (fun x hx hx' => hin x (seg_alloc hf x hx).1 hx') hg
    have er := hk.others s.root (List.not_mem_cons_of_ne_of_not_mem (fun e => hqr e.symm) hrg)
    refine ⟨by rw [hk.root]; exact h.root0, by rw [hk.root, er.1]; exact h.parent0,
      by rw [hk.root, er.2.1]; exact h.peer0, hn, hc, f', by rw [hk.root, er.2.2]; exact b1, ?_⟩
    rw [hk.root]
    rw [List.perm_iff_count] at *
    intro x
    have h1 := ha x
    have h2 := hp x
    have h3 := b2 x
    simp only [List.count_append, List.count_cons] at *
    omega

/-- A new thread is registered, and nothing else changes. -/
theorem addThread_wf {s : St} (h : Wf s) {p q : Nat} (hp0 : p ≠ 0) (hp : p ∉ s.alloc) (hq : q ∈ s.alloc) :
    ∃ s', addThread s p q = some s' ∧ Wf s' ∧ s'.alloc = p :: s.alloc ∧ s'.root = s.root := by
  have hpq : p ≠ q := fun e => hp (e ▸ hq)
  let s' : St := { s with
    alloc := p :: s.alloc
    parent := upd s.parent p q
    peer := upd (upd s.peer p 0) p (s.child q)
    child := upd (upd s.child p 0) q p
    threadCount := s.threadCount + 1 }
  refine ⟨s', ?_, ?_, rfl, rfl⟩
  · have : upd s.child p 0 q = s.child q := upd_ne (fun e => hpq e.symm)
    simp [addThread, rd, setPeer, setChild, hq, this, s']
  · obtain ⟨f, hf, hperm⟩ := h.tree
    have hnd : (s.root :: ids f).Nodup := hperm.nodup_iff.1 h.nodup
    obtain ⟨hr, hfn⟩ := List.nodup_cons.1 hnd
    have hpf : p ∉ ids f := fun e => hp (seg_alloc hf p e).1
    have hpr : p ≠ s.root := fun e => hp (e ▸ hperm.mem_iff.2 (List.mem_cons_self ..))
    -- first the fields of `p`, which nobody looks at
    let s1 : St := { s with
      alloc := p :: s.alloc
      parent := upd s.parent p q
      peer := upd (upd s.peer p 0) p (s.child q)
      child := upd s.child p 0
      threadCount := s.threadCount + 1 }
    have fr : ∀ x, x ≠ p → s1.parent x = s.parent x ∧ s1.peer x = s.peer x ∧ s1.child x = s.child x := by
      intro x hx
      exact ⟨upd_ne hx, by show upd (upd s.peer p 0) p _ x = _; rw [upd_ne hx, upd_ne hx], upd_ne hx⟩
    have hf1 : Seg s1 s.root (s.child s.root) f 0 := seg_frame hf (fun x hx => by
      have := fr x (fun e => hpf (e ▸ hx))
      exact ⟨this.1, this.2.1, this.2.2, List.mem_cons_of_mem _ (seg_alloc hf x hx).1⟩)
    have key : ∀ g : F, Seg s1 q (s1.child q) g 0 → q ∉ ids g → p ∉ ids g →
        Seg s' q (s'.child q) (.node p .nil g) 0 ∧ Keeps s1 s' q (ids g) := by
      intro g hg hqg hpg
      have hc : s'.child q = p := upd_eq
      refine ⟨?_, ⟨?_, rfl, rfl, rfl⟩⟩
      · rw [hc]
        refine ⟨rfl, hp0, List.mem_cons_self .., upd_eq, ?_, ?_⟩
        · show upd (upd s.child p 0) q p p = 0
          rw [upd_ne hpq, upd_eq]
        · have : s'.peer p = s1.child q := by
            show upd (upd s.peer p 0) p (s.child q) p = upd s.child p 0 q
            rw [upd_eq, upd_ne (fun e => hpq e.symm)]
          rw [this]
          refine seg_frame hg (fun x hx => ⟨rfl, rfl, ?_, (seg_alloc hg x hx).1⟩)
          show upd (upd s.child p 0) q p x = upd s.child p 0 x
          exact upd_ne (fun e => hqg (e ▸ hx))
      · intro x hx
        refine ⟨rfl, rfl, ?_⟩
        show upd (upd s.child p 0) q p x = upd s.child p 0 x
        exact upd_ne (fun e => hx (by simp [e]))
    have cnt : s'.threadCount = s'.alloc.length := by
      show s.threadCount + 1 = ((p :: s.alloc).length : Nat)
      rw [h.count, List.length_cons]; omega
    by_cases hqr : q = s.root
    · subst hqr
      have e : s1.child s.root = s.child s.root := (fr _ (fun e => hpr e.symm)).2.2
      obtain ⟨k1, k2⟩ := key f (by rw [e]; exact hf1) hr hpf
      refine ⟨h.root0, ?_, ?_, List.nodup_cons.2 ⟨hp, h.nodup⟩, cnt, _, k1, ?_⟩
      · show upd s.parent p _ s.root = 0
        rw [upd_ne (fun e => hpr e.symm)]; exact h.parent0
      · exact ((fr _ (fun e => hpr e.symm)).2.1).trans h.peer0
      · show (p :: s.alloc).Perm (s.root :: (p :: ([] ++ ids f)))
        rw [List.perm_iff_count] at *
        intro x
        have := hperm x
        simp only [List.count_append, List.count_cons, List.count_nil] at *
        omega
    · have hqf : q ∈ ids f := by
        have := hperm.mem_iff.1 hq
        simp only [List.mem_cons] at this
        exact this.resolve_left hqr
      obtain ⟨g, a1, a2, a3, a4, a5⟩ := focus hf1 hfn hqf
      obtain ⟨k1, k2⟩ := key g a1 a3 (fun e => hpf (a2 _ e))
      obtain ⟨f', c1, c2⟩ := a5 s' _ k2 (fun x hx _ => List.mem_cons_of_mem _ (seg_alloc hf x hx).1) k1
      have hc : s'.child s.root = s.child s.root := by
        show upd (upd s.child p 0) q p s.root = _
        rw [upd_ne (fun e => hqr e.symm), upd_ne (fun e => hpr e.symm)]
      refine ⟨h.root0, ?_, ?_, List.nodup_cons.2 ⟨hp, h.nodup⟩, cnt, f', ?_, ?_⟩
      · show upd s.parent p _ s.root = 0
        rw [upd_ne (fun e => hpr e.symm)]; exact h.parent0
      · exact ((fr _ (fun e => hpr e.symm)).2.1).trans h.peer0
      · show Seg s' s.root (s'.child s.root) f' 0
        rw [hc]; exact c1
      · show (p :: s.alloc).Perm (s.root :: ids f')
        rw [List.perm_iff_count] at *
        intro x
        have := hperm x
        have := c2 x
        simp only [ids, List.count_append, List.count_cons, List.count_nil] at *
        omega

/-- Disposing of any thread but the root removes that thread alone; its children stay. -/
theorem dispose_wf {s : St} (h : Wf s) {o : Nat} (ho : o ∈ s.alloc) (hr : o ≠ s.root) :
    ∃ s', dispose s o = some s' ∧ Wf s' ∧ s'.alloc = s.alloc.erase o ∧ s'.root = s.root := by
  obtain ⟨f, hf, hp⟩ := h.tree
  have hnd : (s.root :: ids f).Nodup := hp.nodup_iff.1 h.nodup
  obtain ⟨hrf, hfn⟩ := List.nodup_cons.1 hnd
  have hof : o ∈ ids f := by
    have := hp.mem_iff.1 ho
    simp only [List.mem_cons] at this
    exact this.resolve_left hr
  have main : ∀ q, q ∈ s.alloc → q ≠ 0 →
      (∀ g, Seg s q (s.child q) g 0 → ∃ a k b, g = app a (.node o k b)) →
      ∃ s', dispose s o = some s' ∧ Wf s' ∧ s'.alloc = s.alloc.erase o ∧ s'.root = s.root := by
    intro q hqa hq0 hsplit
    obtain ⟨g0, d1, _⟩ := wf_local (s' := s) h hqa
    have hex : ∃ s', dispose s o = some s' := by
      obtain ⟨g, b1, b2, b3, _⟩ := wf_local (s' := s) h hqa
      obtain ⟨a, k, b, e⟩ := hsplit g b1
      subst e
      obtain ⟨s', e1, _⟩ := dispose_local b1 b3 b2 hqa hq0 h.nodup
      exact ⟨s', e1⟩
    obtain ⟨s', he⟩ := hex
    obtain ⟨g, b1, b2, b3, b4, b5⟩ := wf_local (s' := s') h hqa
    obtain ⟨a, k, b, e⟩ := hsplit g b1
    subst e
    obtain ⟨s'', e1, e2, e3, e4, e5, _⟩ := dispose_local b1 b3 b2 hqa hq0 h.nodup
    have : s'' = s' := Option.some.inj (e1.symm.trans he)
    subst this
    refine ⟨s'', he, ?_, e4, e3.root⟩
    refine b5 _ e3 (by rw [e4]; exact h.nodup.erase _) ?_ ?_ ?_ e2
    · rw [e5, e4, h.count, List.length_erase_of_mem ho]
      have := List.length_pos_of_mem ho
      omega
    · rw [e4]
      have hcons := List.perm_cons_erase ho
      have hids := ids_revOnto k (app a b)
      simp only [ids_app] at *
      rw [List.perm_iff_count] at *
      intro x
      have h1 := hcons x
      have h2 := hids x
      simp only [ids, List.count_append, List.count_cons] at *
      omega
    · intro x hx hx'
      rw [e4]
      refine (List.mem_erase_of_ne ?_).2 hx
      intro e
      exact hx' (by rw [e, ids_app]; simp [ids])
  rcases locate hf hfn hof with ⟨a, k, b, e1, e2⟩ | ⟨q, e1, e2, e3⟩
  · refine main s.root (hp.mem_iff.2 (List.mem_cons_self ..)) h.root0 ?_
    intro g hg
    have huniq : ∀ (f g : F) (par p : Nat), Seg s par p f 0 → Seg s par p g 0 → f = g := by
      intro f
      induction f with
      | nil =>
        intro g par p hf hg
        cases g with
        | nil => rfl
        | node j _ _ => exact absurd ((hg.1.symm.trans hf)) hg.2.1
      | node i' k' r' ih1 ih2 =>
        intro g par p hf hg
        cases g with
        | nil => exact absurd (hf.1.symm.trans hg) hf.2.1
        | node j k2 r2 =>
          have hij : j = i' := hg.1.symm.trans hf.1
          subst hij
          rw [ih1 k2 _ _ hf.2.2.2.2.1 hg.2.2.2.2.1, ih2 r2 _ _ hf.2.2.2.2.2 hg.2.2.2.2.2]
    exact ⟨a, k, b, (huniq _ _ _ _ hf hg) ▸ e1⟩
  · exact main q (seg_alloc hf q e1).1 (seg_alloc hf q e1).2 e3

/-- A collection disposes of the threads that have ended and of no other. -/
theorem killZombies_wf {s : St} (h : Wf s) (z : Nat → Bool) (hz : z s.root = false) {n : Nat}
    (hn : 2 * s.alloc.length < n) :
    ∃ s', killZombies z n s s.root = some s' ∧ Wf s' ∧ (∀ x, x ∈ s'.alloc ↔ x ∈ s.alloc ∧ z x = false) ∧
      s'.root = s.root := by
  obtain ⟨f, hf, hp⟩ := h.tree
  have hnd : (s.root :: ids f).Nodup := hp.nodup_iff.1 h.nodup
  obtain ⟨hrf, hfn⟩ := List.nodup_cons.1 hnd
  have hra : s.root ∈ s.alloc := hp.mem_iff.2 (List.mem_cons_self ..)
  have hlen := hp.length_eq
  rw [List.length_cons] at hlen
  obtain ⟨m, rfl⟩ : ∃ m, n = m + 1 := ⟨n - 1, by omega⟩
  obtain ⟨s', f', v1, v2, v3, v4, v5, v6, v7, _⟩ := killKids z f .nil s s.root (s.child s.root) m rfl hf
    (by simpa [ids] using hfn) (by simpa [ids] using hrf) hra h.root0 h.nodup (by omega)
  have hr' : s'.root = s.root := v4.root
  have hmem : ∀ x, x ∈ s'.alloc ↔ x ∈ s.alloc ∧ z x = false := by
    intro x
    rw [v6]
    constructor
    · rintro ⟨h1, h2⟩
      refine ⟨h1, ?_⟩
      by_cases hx : x = s.root
      · rw [hx]; exact hz
      · have : x ∈ ids f := by
          have := hp.mem_iff.1 h1
          simp only [List.mem_cons] at this
          exact this.resolve_left hx
        cases hzx : z x with
        | false => rfl
        | true => exact absurd ⟨this, hzx⟩ h2
    · rintro ⟨h1, h2⟩
      exact ⟨h1, fun e => by rw [h2] at e; exact absurd e.2 (by decide)⟩
  have hperm : s'.alloc.Perm (s.root :: ids f') := by
    refine (List.perm_ext_iff_of_nodup v5 ?_).2 ?_
    · refine List.nodup_cons.2 ⟨?_, ?_⟩
      · rw [v3.mem_iff]; simp [ids, hrf]
      · exact v3.nodup_iff.2 (List.Nodup.sublist (by simp [ids]) hfn)
    · intro x
      rw [hmem, List.mem_cons, v3.mem_iff, hp.mem_iff]
      simp only [ids, List.nil_append, List.mem_filter, List.mem_cons, Bool.not_eq_true']
      constructor
      · rintro ⟨e | e, h2⟩
        · exact .inl e
        · exact .inr ⟨e, h2⟩
      · rintro (e | e)
        · exact ⟨.inl e, e ▸ hz⟩
        · exact ⟨.inr e.1, e.2⟩
  refine ⟨s', ?_, ⟨by rw [hr']; exact h.root0, by rw [hr', v4.parent]; exact h.parent0,
    by rw [hr', v4.peer]; exact h.peer0, v5, ?_, f', by rw [hr']; exact v2, by rw [hr']; exact hperm⟩, hmem, hr'⟩
  · show ((rd s s.child s.root).bind fun p =>
      (visitKids (fun s o => if z o then dispose s o else some s) m s p).bind fun s' =>
        if z s.root then dispose s' s.root else some s') = _
    simp only [rd, if_pos hra, Option.bind_some, v1, hz]
    rfl
  · rw [v7, h.count, hperm.length_eq, hlen, List.length_cons, v3.length_eq]
    have : (ids f).length = tally z (ids f) + ((ids f).filter (fun x => !z x)).length := by
      unfold tally
      induction ids f with
      | nil => rfl
      | cons a l ih => cases hza : z a <;> simp [List.filter_cons, hza, ih] <;> omega
    simp only [ids, List.nil_append]
    omega

/-! ### Every order of starts, exits and collections -/

inductive Op
  /-- a thread `p` is started or attached under `q` -/
  | add (p q : Nat)
  /-- `o` is taken out of the tree -/
  | exit (o : Nat)
  /-- a collection, when the threads in `z` have ended -/
  | collect (z : List Nat)

def exec (s : St) : Op → Option St
  | .add p q => addThread s p q
  | .exit o => dispose s o
  | .collect z => killZombies (fun o => z.contains o) (2 * s.alloc.length + 1) s s.root

def run : St → List Op → Option St
  | s, [] => some s
  | s, op :: ops => (exec s op).bind fun s => run s ops

/-- What should be registered after the operation. -/
def specStep (live : List Nat) : Op → List Nat
  | .add p _ => p :: live
  | .exit o => live.filter (· ≠ o)
  | .collect z => live.filter fun x => !z.contains x

/-- The operations the VM may do: new threads are new, parents are registered, the root stays. -/
def Allowed (root : Nat) : List Nat → List Op → Prop
  | _, [] => True
  | live, op :: ops =>
    (match op with
      | .add p q => p ≠ 0 ∧ p ∉ live ∧ q ∈ live
      | .exit o => o ∈ live ∧ o ≠ root
      | .collect z => root ∉ z) ∧ Allowed root (specStep live op) ops

theorem allowed_congr {root : Nat} : ∀ {ops : List Op} {l l' : List Nat}, (∀ x, x ∈ l ↔ x ∈ l') →
    Allowed root l ops → Allowed root l' ops
  | [], _, _, _, _ => trivial
  | op :: ops, l, l', hl, ⟨h1, h2⟩ => by
    refine ⟨?_, allowed_congr (l := specStep l op) ?_ h2⟩
    · cases op <;> simp only [hl] at h1 ⊢ <;> exact h1
    · intro x
      cases op <;> simp [specStep, hl]

theorem exec_wf {s : St} (h : Wf s) {op : Op} {ops : List Op} (ha : Allowed s.root s.alloc (op :: ops)) :
    ∃ s', exec s op = some s' ∧ Wf s' ∧ s'.root = s.root ∧ ∀ x, x ∈ s'.alloc ↔ x ∈ specStep s.alloc op := by
  obtain ⟨h1, _⟩ := ha
  cases op with
  | add p q =>
    obtain ⟨s', e1, e2, e3, e4⟩ := addThread_wf h h1.1 h1.2.1 h1.2.2
    exact ⟨s', e1, e2, e4, by intro x; rw [e3]; rfl⟩
  | exit o =>
    obtain ⟨s', e1, e2, e3, e4⟩ := dispose_wf h h1.1 h1.2
    refine ⟨s', e1, e2, e4, ?_⟩
    intro x
    rw [e3, h.nodup.mem_erase_iff]
    simp [specStep, and_comm]
  | collect z =>
    obtain ⟨s', e1, e2, e3, e4⟩ := killZombies_wf h (fun o => z.contains o)
      (by simpa using h1) (n := 2 * s.alloc.length + 1) (by omega)
    refine ⟨s', e1, e2, e4, ?_⟩
    intro x
    rw [e3]
    simp [specStep]

/-- **C40 (partial).** However threads are started, end and are collected while the root thread
lives: no link to a freed thread is ever followed, and the threads found from the root are exactly
those that were registered and have not been removed.  Missing: the end of the root thread
(`dispose_root_dangling`) and failed starts that race with another (`removeThread_loses`). -/
theorem run_partial : ∀ (ops : List Op) (s : St), Wf s → Allowed s.root s.alloc ops →
    ∃ s', run s ops = some s' ∧ Wf s' ∧ s'.root = s.root ∧
      (∀ x, Reach s' x ↔ x ∈ ops.foldl specStep s.alloc)
  | [], s, h, _ => ⟨s, rfl, h, rfl, reach_iff h⟩
  | op :: ops, s, h, ha => by
    obtain ⟨s1, e1, e2, e3, e4⟩ := exec_wf h ha
    obtain ⟨s2, f1, f2, f3, f4⟩ := run_partial ops s1 e2
      (by rw [e3]; exact allowed_congr (fun x => (e4 x).symm) ha.2)
    refine ⟨s2, by simp [run, e1, f1], f2, f3.trans e3, ?_⟩
    intro x
    rw [f4]
    have : ∀ (ops : List Op) (l l' : List Nat), (∀ x, x ∈ l ↔ x ∈ l') →
        ∀ x, x ∈ ops.foldl specStep l ↔ x ∈ ops.foldl specStep l' := by
      intro ops
      induction ops with
      | nil => intro l l' hl; exact hl
      | cons op ops ih =>
        intro l l' hl
        refine ih _ _ (fun x => ?_)
        cases op <;> simp [specStep, hl]
    exact this ops _ _ e4 x

/-- A visit to all threads (joining, interrupting daemons, scanning roots) meets each once. -/
theorem visitAll_once {s : St} (h : Wf s) {n : Nat} (hn : 2 * s.alloc.length < n) :
    ∃ l, visitAll (fun s o => some { s with log := o :: s.log }) n s s.root = some { s with log := l ++ s.log } ∧
      l.Perm s.alloc := by
  obtain ⟨f, hf, hp⟩ := h.tree
  have hra : s.root ∈ s.alloc := hp.mem_iff.2 (List.mem_cons_self ..)
  have hlen := hp.length_eq
  rw [List.length_cons] at hlen
  obtain ⟨m, rfl⟩ : ∃ m, n = m + 1 := ⟨n - 1, by omega⟩
  obtain ⟨l, v1, v2⟩ := logKids f s s.root (s.child s.root) m hf (by omega)
  refine ⟨s.root :: l, ?_, (v2.cons _).trans hp.symm⟩
  show ((rd s s.child s.root).bind fun p =>
    (visitKids (fun s o => some { s with log := o :: s.log }) m s p).bind fun s' =>
      some { s' with log := s.root :: s'.log }) = _
  simp only [rd, if_pos hra, Option.bind_some, v1, List.cons_append]

/-- When the VM is shut down every thread is freed once, which leaves the counter at 0. -/
theorem shutdown_frees_all {s : St} (h : Wf s) {n : Nat} (hn : 2 * s.alloc.length < n) :
    ∃ s', visitAll free n s s.root = some s' ∧ s'.alloc = [] ∧ s'.threadCount = 0 := by
  obtain ⟨f, hf, hp⟩ := h.tree
  have hnd : (s.root :: ids f).Nodup := hp.nodup_iff.1 h.nodup
  obtain ⟨hrf, hfn⟩ := List.nodup_cons.1 hnd
  have hra : s.root ∈ s.alloc := hp.mem_iff.2 (List.mem_cons_self ..)
  have hlen := hp.length_eq
  rw [List.length_cons] at hlen
  obtain ⟨m, rfl⟩ : ∃ m, n = m + 1 := ⟨n - 1, by omega⟩
  obtain ⟨s', v1, v2, v3, v4, _⟩ := freeKids f s s.root (s.child s.root) m hf hfn h.nodup (by omega)
  have hr' : s.root ∈ s'.alloc := (v3 _).2 ⟨hra, hrf⟩
  refine ⟨{ s' with alloc := s'.alloc.erase s.root, threadCount := s'.threadCount - 1 }, ?_, ?_, ?_⟩
  · show ((rd s s.child s.root).bind fun p => (visitKids free m s p).bind fun s' => free s' s.root) = _
    simp only [rd, if_pos hra, Option.bind_some, v1]
    exact if_pos hr'
  · refine List.eq_nil_iff_forall_not_mem.2 (fun x hx => ?_)
    obtain ⟨h1, h2⟩ := (v2.mem_erase_iff).1 hx
    obtain ⟨h3, h4⟩ := (v3 x).1 h2
    have := hp.mem_iff.1 h3
    simp only [List.mem_cons] at this
    exact this.elim h1 h4
  · show s'.threadCount - 1 = 0
    rw [v4, h.count]
    omega

/-- A start that fails takes the thread out again if nobody was registered in between, but the
counter has gone down twice. -/
theorem removeThread_first {s : St} (h : Wf s) {p q : Nat} (hp0 : p ≠ 0) (hp : p ∉ s.alloc) (hq : q ∈ s.alloc) :
    ∃ s1 s2, addThread s p q = some s1 ∧ removeThread s1 p = some s2 ∧ (∀ x, Reach s2 x ↔ Reach s x) ∧
      s2.alloc = s.alloc ∧ s2.threadCount = s.threadCount - 1 := by
  have hpq : p ≠ q := fun e => hp (e ▸ hq)
  have hqp : q ≠ p := fun e => hpq e.symm
  let s1 : St := { s with
    alloc := p :: s.alloc
    parent := upd s.parent p q
    peer := upd (upd s.peer p 0) p (s.child q)
    child := upd (upd s.child p 0) q p
    threadCount := s.threadCount + 1 }
  let s2 : St := { s with
    parent := upd s.parent p q
    peer := upd (upd s.peer p 0) p (s.child q)
    child := upd (upd (upd s.child p 0) q p) q (s.child q)
    threadCount := s.threadCount - 1 }
  have hroot : s.root ≠ p := fun e => hp (e ▸ (reach_iff h _).1 .root)
  have frm : ∀ x, x ≠ p → s2.child x = s.child x ∧ s2.peer x = s.peer x := by
    intro x hx
    refine ⟨?_, ?_⟩
    · show upd (upd (upd s.child p 0) q p) q (s.child q) x = _
      by_cases hxq : x = q
      · rw [hxq, upd_eq]
      · rw [upd_ne hxq, upd_ne hxq, upd_ne hx]
    · show upd (upd s.peer p 0) p (s.child q) x = _
      rw [upd_ne hx, upd_ne hx]
  have alive : ∀ x, Reach s x → x ≠ p := fun x hx e => hp (e ▸ (reach_iff h x).1 hx)
  refine ⟨s1, s2, ?_, ?_, ?_, rfl, rfl⟩
  · have : upd s.child p 0 q = s.child q := upd_ne hqp
    simp [addThread, rd, setPeer, setChild, hq, this, s1]
  · have e1 : upd s.parent p q p = q := upd_eq
    have e2 : upd (upd s.peer p 0) p (s.child q) p = s.child q := upd_eq
    simp [removeThread, rd, setChild, free, hq, e1, e2, s1, s2]
  · intro x
    constructor
    · intro hr
      induction hr with
      | root => exact .root
      | child _ hc ih => rw [(frm _ (alive _ ih)).1] at hc ⊢; exact .child ih hc
      | peer _ hc ih => rw [(frm _ (alive _ ih)).2] at hc ⊢; exact .peer ih hc
    · intro hr
      induction hr with
      | root => exact .root
      | child hx hc ih => rw [← (frm _ (alive _ hx)).1] at hc ⊢; exact .child ih hc
      | peer hx hc ih => rw [← (frm _ (alive _ hx)).2] at hc ⊢; exact .peer ih hc

/-! ### Where it goes wrong -/

/-- Root 1 with children 3 and 2 (in this order). -/
def family : St := ((addThread (start 1) 2 1).bind fun s => addThread s 3 1).getD (start 1)

theorem family_wf : Wf family := by
  obtain ⟨s1, a1, a2, a3, a4⟩ := addThread_wf (wf_start (o := 1) (by decide)) (p := 2) (q := 1)
    (by decide) (by decide) (by decide)
  obtain ⟨s2, b1, b2, b3, b4⟩ := addThread_wf a2 (p := 3) (q := 1) (by decide) (by rw [a3]; decide) (by rw [a3]; decide)
  have : family = s2 := by unfold family; rw [a1, Option.bind_some, b1]; rfl
  rw [this]; exact b2

/-- **C40 fails when the root thread is removed.** Its children keep a link to the freed thread, so
removing one of them afterwards reads freed memory. -/
theorem dispose_root_dangling :
    ∃ s, dispose family family.root = some s ∧ s.root ∈ s.alloc ∧ s.parent s.root = family.root ∧
      family.root ∉ s.alloc ∧ dispose s s.root = none := by
  have h : (dispose family family.root).isSome = true := by decide +kernel
  obtain ⟨s, hs⟩ := Option.isSome_iff_exists.1 h
  have hs' : s = (dispose family family.root).getD family := by rw [hs]; rfl
  refine ⟨s, hs, ?_⟩
  rw [hs', ← Option.isNone_iff_eq_none]
  decide +kernel

/-- Moreover a visit from the new root misses its peers: thread 2 is registered and not visited. -/
theorem dispose_root_hides :
    ∃ s, dispose family family.root = some s ∧ 2 ∈ s.alloc ∧
      ((visitAll (fun s o => some { s with log := o :: s.log }) 10 s s.root).map (·.log)) = some [3] := by
  have h : (dispose family family.root).isSome = true := by decide +kernel
  obtain ⟨s, hs⟩ := Option.isSome_iff_exists.1 h
  have hs' : s = (dispose family family.root).getD family := by rw [hs]; rfl
  refine ⟨s, hs, ?_⟩
  rw [hs']
  decide +kernel

/-- **C40 fails when a start fails late.** If thread 3 is registered under the same parent before the
failed start of thread 2 is undone, thread 3 can no longer be found although it is allocated. -/
theorem removeThread_loses :
    ∃ s, removeThread family 2 = some s ∧ 3 ∈ s.alloc ∧ ¬ Reach s 3 := by
  have h : (removeThread family 2).isSome = true := by decide +kernel
  obtain ⟨s, hs⟩ := Option.isSome_iff_exists.1 h
  have hs' : s = (removeThread family 2).getD family := by rw [hs]; rfl
  refine ⟨s, hs, by rw [hs']; decide +kernel, ?_⟩
  have e1 : s.root = 1 := by rw [hs']; decide +kernel
  have e2 : s.child 1 = 0 := by rw [hs']; decide +kernel
  have e3 : s.peer 1 = 0 := by rw [hs']; decide +kernel
  have : ∀ x, Reach s x → x = 1 := by
    intro x hx
    induction hx with
    | root => exact e1
    | child _ hc ih => rw [ih] at hc; exact absurd e2 hc
    | peer _ hc ih => rw [ih] at hc; exact absurd e3 hc
  exact fun h => by have := this _ h; omega

/-- Starts, an exit of a thread with children, a collection and another start. -/
example : ∃ s', run (start 1) [.add 2 1, .add 3 1, .add 4 3, .add 5 3, .add 6 5, .exit 3, .collect [5, 2], .add 7 6]
    = some s' ∧ (∀ x, Reach s' x ↔ x ∈ [7, 6, 4, 1]) := by
  obtain ⟨s', h1, _, _, h2⟩ := run_partial
    [.add 2 1, .add 3 1, .add 4 3, .add 5 3, .add 6 5, .exit 3, .collect [5, 2], .add 7 6]
    (start 1) (wf_start (by decide)) (by simp [Allowed, specStep, start])
  exact ⟨s', h1, fun x => by rw [h2]; simp [specStep, start]⟩

example : ∃ s', visitAll free 20 family family.root = some s' ∧ s'.alloc = [] ∧ s'.threadCount = 0 :=
  shutdown_frees_all family_wf (by decide +kernel)

end Avian.Threads
